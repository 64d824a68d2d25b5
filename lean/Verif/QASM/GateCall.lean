/-
Importing gate calls (`Importer::evaluateGateCall`, `getMcGateDefinition`, `applyQuantumOperation` and
`parseGateIdentifierCompatMode`, src/qasm3/Importer.cpp 488-835, 951-966; `Gate`, include/mqt-core/qasm3/Gate.hpp;
`STANDARD_GATES`, include/mqt-core/qasm3/StdGates.hpp 49-122).

Parameters are real numbers.  Evaluating an expression is an arbitrary function of the environment (its model is
Verif/QASM/ConstEval.lean), and an environment is what `find` returns (Verif/QASM/Env.lean): `pushEnv`, `addConst` and
`popEnv` bind the parameters of a gate over the environment of the caller.  The rewriting of `U`, `U2` and `P` gates by
the constructor of `StandardOperation` is in Verif/IR/ParseU.lean and left out here, as are resets in the body of a gate
and the growth of the circuit for hardware qubits.
-/
import Verif.IR.Reversible
import Verif.QASM.Dump
import Mathlib.Data.List.Forall2
import Mathlib.Data.List.Nodup

set_option autoImplicit false

namespace MQT.QASM.GateCall

open MQT.IR

/-! ### Model -/

/-- `GateOperand`. -/
inductive Arg
  | op (o : Operand)
  | hw (n : ℕ)
  deriving DecidableEq

/-- `GateModifier`: `ctrl(n)` or `negctrl(n)`, `inv`, `pow`. -/
inductive Mod
  | ctrl (pos : Bool) (n : ℕ)
  | inv
  | pow
  deriving DecidableEq

/-- `GateCallStatement`. -/
structure Call (E : Type) where
  name : String
  mods : List Mod
  args : List E
  operands : List Arg

/-- A statement in the body of a gate. -/
inductive Stmt (E : Type)
  | call (c : Call E)
  | barrier (qs : List Arg)

/-- `StandardGate`, `CompoundGate` (Gate.hpp 24-64). -/
inductive Gate (E : Type)
  | std (nControls nTargets nParams : ℕ) (type : OpType)
  | compound (params qubits : List String) (body : List (Stmt E))

variable {E : Type}

def Gate.nControls : Gate E → ℕ
  | .std n _ _ _ => n
  | .compound _ _ _ => 0

def Gate.nTargets : Gate E → ℕ
  | .std _ n _ _ => n
  | .compound _ qs _ => qs.length

def Gate.nParams : Gate E → ℕ
  | .std _ _ n _ => n
  | .compound ps _ _ => ps.length

/-- The names of the parameters. -/
def Gate.params : Gate E → List String
  | .std _ _ _ _ => []
  | .compound ps _ _ => ps

/-- What `find` returns for every name. -/
abbrev Vals := String → Option ℝ

/-- Expressions and their evaluation (`ConstEvalPass::visit`); `none` if the expression is not constant. -/
structure Exprs (E : Type) where
  ev : Vals → E → Option ℝ
  ident : String → E
  ev_ident : ∀ ρ x, ev ρ (ident x) = ρ x

/-- `pushEnv` and `addConst` for every parameter (Importer.cpp 755-760). -/
def bindParams (ps : List String) (vals : List ℝ) (ρ : Vals) : Vals := fun x => ((ps.zip vals).lookup x).or (ρ x)

/-- `translateGateOperand` (Importer.cpp 101-152). -/
def translateArg (regs : List Reg) : Arg → Res (List ℕ)
  | .op o => translate regs o
  | .hw n => .ok [n]

def translateArgs (regs : List Reg) : List Arg → Res (List ℕ)
  | [] => .ok []
  | a :: l => (translateArg regs a).bind fun t => (translateArgs regs l).bind fun r => .ok (t ++ r)

/-- The name of a qubit in `getMcGateDefinition`. -/
def mcQubit (i : ℕ) : String := "q" ++ toString i

/-- Importer.cpp 703-708; the arithmetic on `size_t` is exact. -/
def mcTargets (name : String) (n : ℕ) : ℕ :=
  if name = "mcx_vchain" then n + 2 - (n + 1) / 2
  else if name = "mcx_recursive" ∧ 5 < n then n - 1
  else n

/-- `getMcGateDefinition` (Importer.cpp 698-738). -/
def mcGate (X : Exprs E) (name : String) (n : ℕ) : Gate E :=
  let nTargets := mcTargets name n
  let operands := (List.range (min nTargets n)).map fun i => Arg.op (.reg (mcQubit i))
  let nControls := if nTargets = 0 then 2 ^ 64 - 1 else nTargets - 1
  let phase := name = "mcphase"
  .compound (if phase then ["x"] else []) ((List.range n).map mcQubit)
    [.call ⟨if phase then "p" else "x", [.ctrl true nControls], if phase then [X.ident "x"] else [], operands⟩]

/-- The gates declared. -/
abbrev Gates (E : Type) := String → Option (Gate E)

/-- `parseGateIdentifierCompatMode` (Importer.cpp 951-966). -/
def parseCompat (G : Gates E) (name : String) : String × ℕ :=
  let rest := String.ofList (name.toList.dropWhile (· = 'c'))
  if (G rest).isNone then (name, 0) else (rest, (name.toList.takeWhile (· = 'c')).length)

/-- Finding the gate, and its implicit controls (Importer.cpp 494-522). -/
def lookup (X : Exprs E) (G : Gates E) (compat : Bool) (name : String) (n : ℕ) : Option (Gate E × ℕ) :=
  match G name with
  | some g => some (g, 0)
  | none =>
    if name ∈ ["mcx", "mcx_gray", "mcx_vchain", "mcx_recursive", "mcphase"] then some (mcGate X name n, 0)
    else if compat then
      let p := parseCompat G name
      (G p.1).map fun g => (g, p.2)
    else none

/-- The loop over the modifiers (Importer.cpp 550-581).  The sum of the numbers of controls is computed modulo `2^64`. -/
def modLoop (targets : List Arg) : List Mod → ℕ → List (Arg × Bool) → Bool → Res (ℕ × List (Arg × Bool) × Bool)
  | [], nC, cs, inv => .ok (nC, cs, inv)
  | .ctrl pos n :: ms, nC, cs, inv =>
    if targets.length < (n + nC) % 2 ^ 64 then .throw
    else if targets.length < n + nC then .ub
    else modLoop targets ms (nC + n) (cs ++ ((targets.drop nC).take n).map fun a => (a, pos)) inv
  | .inv :: ms, nC, cs, inv => modLoop targets ms nC cs !inv
  | .pow :: _, _, _, _ => .throw

/-- The loops over the targets and the controls (Importer.cpp 608-654): the first qubit of every operand, whether it is
broadcast, and the width. -/
def collect (regs : List Reg) : List Arg → ℕ → Res (List (ℕ × Bool) × ℕ)
  | [], w => .ok ([], w)
  | a :: l, w => (translateArg regs a).bind fun t =>
    match t with
    | [] => .ub
    | [q] => (collect regs l w).bind fun r => .ok ((q, false) :: r.1, r.2)
    | q :: _ :: _ =>
      if w ≠ 1 ∧ t.length ≠ w then .throw
      else (collect regs l t.length).bind fun r => .ok ((q, true) :: r.1, r.2)

/-- The qubit of an operand in the `j`-th instance (Importer.cpp 688-693). -/
def pick (j : ℕ) (p : ℕ × Bool) : ℕ := if p.2 then p.1 + j else p.1

def ofOption {α : Type} : Option α → Res α
  | some a => .ok a
  | none => .throw

/-- A parameter of the gate with an index (Importer.cpp 791-806). -/
def indexedFormal (formals : List String) : Arg → Bool
  | .op (.elem name _) => decide (name ∈ formals)
  | _ => false

/-- Importer.cpp 771-819. -/
def runBody (call : List Reg → Vals → Call E → Res (UOp ℝ)) (regs : List Reg) (ρ : Vals) (formals : List String) :
    List (Stmt E) → Res (List (UOp ℝ))
  | [] => .ok []
  | .barrier as :: l => (translateArgs regs as).bind fun qs =>
    (runBody call regs ρ formals l).bind fun r => .ok (.std ⟨.barrier, [], ∅, qs⟩ :: r)
  | .call c :: l =>
    if c.operands.any (indexedFormal formals) then .throw
    else (call regs ρ c).bind fun o => (runBody call regs ρ formals l).bind fun r => .ok (o :: r)

/-- The registers of the body of a gate (Importer.cpp 762-768). -/
def bodyRegs (names : List String) (qs : List ℕ) : List Reg := List.zipWith (fun name q => ⟨q, 1, name⟩) names qs

/-- A compound operation with one part is replaced by it (Importer.cpp 827-829). -/
def unwrap : UOp ℝ → UOp ℝ
  | .compound [o] => o
  | o => o

/-- `if (invertOperation) op->invert()`. -/
noncomputable def invertIf (inv : Bool) (o : UOp ℝ) : Res (UOp ℝ) := if inv then ofOption o.invert else .ok o

open Classical in
/-- `applyQuantumOperation` (Importer.cpp 740-835). -/
noncomputable def applyGate (call : List Reg → Vals → Call E → Res (UOp ℝ)) (ρ : Vals) (g : Gate E) (ts : List ℕ)
    (cs : List Ctrl) (vals : List ℝ) (inv : Bool) : Res (UOp ℝ) :=
  match g with
  | .std _ _ _ type => invertIf inv (.std ⟨type, vals, cs.toFinset, ts⟩)
  | .compound ps names body =>
    (runBody call (bodyRegs names ts) (bindParams ps vals ρ) names body).bind fun ops =>
      (ofOption ((UOp.compound ops).addControls cs.toFinset)).bind fun o =>
        (invertIf inv o).bind fun o => .ok (unwrap o)

def mapRes {α β : Type} (f : α → Res β) : List α → Res (List β)
  | [] => .ok []
  | a :: l => (f a).bind fun b => (mapRes f l).bind fun r => .ok (b :: r)

/-- The loop over the instances (Importer.cpp 656-695). -/
noncomputable def instances (f : ℕ → Res (UOp ℝ)) (w : ℕ) : Res (UOp ℝ) :=
  if w = 1 then f 0 else (mapRes f (List.range w)).bind fun ops => .ok (.compound ops)

/-- One instance (Importer.cpp 658-678). -/
noncomputable def instanceOf (call : List Reg → Vals → Call E → Res (UOp ℝ)) (ρ : Vals) (g : Gate E)
    (tb cb : List (ℕ × Bool)) (pols : List Bool) (vals : List ℝ) (inv : Bool) (j : ℕ) : Res (UOp ℝ) :=
  if (cb.map (pick j) ++ tb.map (pick j)).Nodup then
    applyGate call ρ g (tb.map (pick j)) ((cb.map (pick j)).zip pols) vals inv
  else .throw

/-- `evaluateGateCall` (Importer.cpp 488-696), with a bound on the depth of the recursion; unbounded recursion is
undefined behaviour. -/
noncomputable def evalCall (X : Exprs E) (G : Gates E) (compat : Bool) : ℕ → List Reg → Vals → Call E → Res (UOp ℝ)
  | 0, _, _, _ => .ub
  | n + 1, regs, ρ, c =>
    match lookup X G compat c.name c.operands.length with
    | none => .throw
    | some (g, k) =>
      if g.nParams ≠ c.args.length then .throw
      else if c.operands.length < g.nControls + k then .throw
      else
        (modLoop c.operands c.mods (g.nControls + k) ((c.operands.take (g.nControls + k)).map fun a => (a, true)) false).bind
        fun m =>
          if g.nTargets ≠ (c.operands.drop m.1).length then .throw
          else
            match c.args.mapM (X.ev ρ) with
            | none => .throw
            | some vals =>
              (collect regs (c.operands.drop m.1) 1).bind fun t =>
                (collect regs (m.2.1.map Prod.fst) t.2).bind fun cc =>
                  instances (instanceOf (evalCall X G compat n) ρ g t.1 cc.1 (m.2.1.map Prod.snd) vals m.2.2) cc.2

/-! ### Specification -/

/-- Modifiers: the outermost comes first, and `ctrl` takes the first operands.  `B` is the meaning of the gate. -/
inductive ModsMean (B : List ℕ → (State → State) → Prop) : List Mod → List ℕ → (State → State) → Prop
  | nil {qs f} : B qs f → ModsMean B [] qs f
  | ctrl {pos n ms qs f} : n ≤ qs.length → ModsMean B ms (qs.drop n) f →
      ModsMean B (.ctrl pos n :: ms) qs (ctl ((qs.take n).map fun q => (q, pos)).toFinset f)
  | inv {ms qs f g} : ModsMean B ms qs f → UOp.Undo f g → ModsMean B (.inv :: ms) qs g

/-- The body of a gate: the statements one after the other; `C` is the meaning of calls. -/
inductive BodyMeans (C : Call E → (State → State) → Prop) : List (Stmt E) → (State → State) → Prop
  | nil : BodyMeans C [] fun ψ => ψ
  | barrier {as l f} : BodyMeans C l f → BodyMeans C (.barrier as :: l) f
  | call {c l f g} : C c g → BodyMeans C l f → BodyMeans C (.call c :: l) fun ψ => f (g ψ)

/-- A gate applied to qubits.  The first qubits of a standard gate are its controls.  The body of a gate sees its
parameters and the constants `ρ₀` of the program. -/
def GateMeans (C : List Reg → Vals → Call E → (State → State) → Prop) (ρ₀ : Vals) (g : Gate E) (vals : List ℝ) (qs : List ℕ)
    (f : State → State) : Prop :=
  match g with
  | .std nC nT _ type => qs.length = nC + nT ∧
      (⟨type, vals, ((qs.take nC).map fun q => (q, true)).toFinset, qs.drop nC⟩ : StdOp ℝ).denote = some f
  | .compound ps names body => qs.length = names.length ∧ BodyMeans (C (bodyRegs names qs) (bindParams ps vals ρ₀)) body f

/-- The instances one after the other. -/
inductive SeqMeans (I : ℕ → (State → State) → Prop) : List ℕ → (State → State) → Prop
  | nil : SeqMeans I [] fun ψ => ψ
  | cons {j l f g} : I j g → SeqMeans I l f → SeqMeans I (j :: l) fun ψ => f (g ψ)

/-- The operands are single qubits or registers of `w` qubits, and there is a register unless `w = 1`. -/
def Broadcast (regs : List Reg) (operands : List Arg) (w : ℕ) : Prop :=
  (∀ a ∈ operands, ∃ t, translateArg regs a = .ok t ∧ (t.length = 1 ∨ t.length = w)) ∧
  (w = 1 ∨ 1 < w ∧ ∃ a ∈ operands, ∃ t, translateArg regs a = .ok t ∧ t.length = w)

/-- The qubit of an operand in the `j`-th instance. -/
def Picks (regs : List Reg) (j : ℕ) (a : Arg) (q : ℕ) : Prop :=
  ∃ t, translateArg regs a = .ok t ∧ (t = [q] ∨ t.length ≠ 1 ∧ t[j]? = some q)

/-- What a call means, for calls nested at most `n` deep: the gate, with its implicit controls and the modifiers, for
every instance. -/
def CallMeans (X : Exprs E) (G : Gates E) (compat : Bool) (ρ₀ : Vals) : ℕ → List Reg → Vals → Call E → (State → State) → Prop
  | 0, _, _, _, _ => False
  | n + 1, regs, ρ, c, f => ∃ g k vals w, lookup X G compat c.name c.operands.length = some (g, k) ∧
      c.args.mapM (X.ev ρ) = some vals ∧ vals.length = g.nParams ∧ Broadcast regs c.operands w ∧
      SeqMeans (fun j f => ∃ qs, List.Forall₂ (Picks regs j) c.operands qs ∧ qs.Nodup ∧
        ModsMean (GateMeans (CallMeans X G compat ρ₀ n) ρ₀ g vals) (c.mods ++ [.ctrl true k]) qs f) (List.range w) f

/-- The name of a parameter of some gate. -/
def ParamName (X : Exprs E) (G : Gates E) (compat : Bool) (x : String) : Prop :=
  ∃ name n g k, lookup X G compat name n = some (g, k) ∧ x ∈ g.params

/-- The expression only depends on these names. -/
def DependsOn (X : Exprs E) (e : E) (N : String → Prop) : Prop := ∀ ρ ρ' : Vals, (∀ x, N x → ρ x = ρ' x) → X.ev ρ e = X.ev ρ' e

/-- The controls the gate has itself do not meet negative ones of a modifier. -/
def Plain (X : Exprs E) (G : Gates E) (compat : Bool) (c : Call E) : Prop :=
  ∀ g k, lookup X G compat c.name c.operands.length = some (g, k) → g.nControls + k = 0 ∨ ∀ n, Mod.ctrl false n ∉ c.mods

/-- A standard gate with so many targets and parameters has a matrix. -/
def ValidStd (nT nP : ℕ) (type : OpType) : Prop :=
  ∀ (vals : List ℝ) (cs : Finset Ctrl) (ts : List ℕ), vals.length = nP → ts.length = nT →
    ∃ f, (⟨type, vals, cs, ts⟩ : StdOp ℝ).denote = some f

/-- The gates declared: the standard ones are valid; in the body of the others, calls are `Plain`, and no expression
refers to a constant that has the name of a parameter of another gate. -/
structure GoodGates (X : Exprs E) (G : Gates E) (compat : Bool) : Prop where
  std : ∀ name nC nT nP type, G name = some (.std nC nT nP type) → ValidStd nT nP type
  plain : ∀ name ps qs body, G name = some (.compound ps qs body) → ∀ c, Stmt.call c ∈ body → Plain X G compat c
  scope : ∀ name ps qs body, G name = some (.compound ps qs body) → ∀ c, Stmt.call c ∈ body → ∀ e ∈ c.args,
    DependsOn X e fun x => x ∈ ps ∨ ¬ ParamName X G compat x

/-! ### Lemmas -/

/-- The values demanded by the modifiers. -/
def polarities : List Mod → List Bool
  | [] => []
  | .ctrl pos n :: ms => List.replicate n pos ++ polarities ms
  | _ :: ms => polarities ms

def parity : List Mod → Bool
  | [] => false
  | .inv :: ms => !parity ms
  | _ :: ms => parity ms

def noPow (ms : List Mod) : Prop := Mod.pow ∉ ms

theorem Res.bind_ok {α β : Type} {r : Res α} {f : α → Res β} {b : β} (h : r.bind f = .ok b) : ∃ a, r = .ok a ∧ f a = .ok b := by
  cases r with
  | ub => cases h
  | throw => cases h
  | ok a => exact ⟨a, rfl, h⟩

theorem modLoop_ok {ts : List Arg} {ms : List Mod} {nC : ℕ} {cs : List (Arg × Bool)} {inv : Bool} {r : ℕ × List (Arg × Bool) × Bool}
    (h : modLoop ts ms nC cs inv = .ok r) (hn : nC ≤ ts.length) (hcs : cs.map Prod.fst = ts.take nC) :
    noPow ms ∧ r.1 = nC + (polarities ms).length ∧ r.1 ≤ ts.length ∧ r.2.1.map Prod.fst = ts.take r.1 ∧
      r.2.1.map Prod.snd = cs.map Prod.snd ++ polarities ms ∧ r.2.2 = (inv ^^ parity ms) := by
  induction ms generalizing nC cs inv with
  | nil =>
    simp only [modLoop, Res.ok.injEq] at h
    subst h
    simp [polarities, parity, hn, hcs, noPow]
  | cons m ms ih =>
    cases m with
    | ctrl pos n =>
      simp only [modLoop] at h
      split_ifs at h with h1 h2
      obtain ⟨a, b, c, d, e, f⟩ := ih h (by omega) (by
        rw [List.map_append, hcs, List.map_map, show (Prod.fst ∘ fun a : Arg => (a, pos)) = id from rfl, List.map_id]
        exact (List.take_add (l := ts)).symm)
      refine ⟨?_, ?_, c, d, ?_, ?_⟩
      · simpa [noPow] using a
      · rw [b]; simp [polarities]; omega
      · rw [e]
        simp only [List.map_append, List.map_map, polarities, List.append_assoc, List.append_cancel_left_eq, List.append_cancel_right_eq]
        rw [show (Prod.snd ∘ fun a : Arg => (a, pos)) = fun _ => pos from rfl, List.map_const', List.length_take, List.length_drop]
        congr 1
        omega
      · simpa [parity] using f
    | inv =>
      simp only [modLoop] at h
      obtain ⟨a, b, c, d, e, f⟩ := ih h hn hcs
      refine ⟨by simpa [noPow] using a, by simpa [polarities] using b, c, d, by simpa [polarities] using e, ?_⟩
      rw [f]; simp [parity]
    | pow => cases h

theorem translateArg_range {regs : List Reg} {a : Arg} {q q' : ℕ} {r : List ℕ} (h : translateArg regs a = .ok (q :: q' :: r)) :
    q :: q' :: r = List.range' q (r.length + 2) := by
  cases a with
  | hw n => simp [translateArg] at h
  | op o =>
    cases o with
    | reg name =>
      simp only [translateArg, translate] at h
      split at h
      · rename_i R _
        simp only [Res.ok.injEq] at h
        have hl := congrArg List.length h
        simp only [List.length_range', List.length_cons] at hl
        have h0 : R.start = q := by
          have := congrArg List.head? h
          rw [hl] at this
          simpa [List.range'_succ] using this
        rw [← h, h0, hl]
      · cases h
    | elem name i =>
      simp only [translateArg, translate] at h
      split at h
      · split_ifs at h
        simp at h
      · cases h

/-- What is kept of an operand. -/
def Kept (regs : List Reg) (w : ℕ) (a : Arg) (p : ℕ × Bool) : Prop :=
  ∃ t, translateArg regs a = .ok t ∧ (p.2 = false ∧ t = [p.1] ∨ p.2 = true ∧ 1 < w ∧ t = List.range' p.1 w)

theorem collect_ok {regs : List Reg} {as : List Arg} {w : ℕ} {r : List (ℕ × Bool) × ℕ} (h : collect regs as w = .ok r)
    (hw : 1 ≤ w) :
    List.Forall₂ (Kept regs r.2) as r.1 ∧ 1 ≤ r.2 ∧ (w ≠ 1 → r.2 = w) ∧
      (r.2 = w ∨ ∃ a ∈ as, ∃ t, translateArg regs a = .ok t ∧ t.length = r.2) := by
  induction as generalizing w r with
  | nil =>
    simp only [collect, Res.ok.injEq] at h
    subst h
    exact ⟨.nil, hw, fun _ => rfl, .inl rfl⟩
  | cons a as ih =>
    simp only [collect] at h
    obtain ⟨t, ht, h⟩ := Res.bind_ok h
    match t, ht, h with
    | [], ht, h => cases h
    | [q], ht, h =>
      obtain ⟨r', h1, h2⟩ := Res.bind_ok h
      simp only [Res.ok.injEq] at h2
      subst h2
      obtain ⟨h3, h4, h5, h6⟩ := ih h1 hw
      exact ⟨.cons ⟨_, ht, .inl ⟨rfl, rfl⟩⟩ h3, h4, h5, h6.imp id fun ⟨a, ha, hh⟩ => ⟨a, by simp [ha], hh⟩⟩
    | q :: q' :: t, ht, h =>
      simp only at h
      split_ifs at h with hne
      obtain ⟨r', h1, h2⟩ := Res.bind_ok h
      simp only [Res.ok.injEq] at h2
      subst h2
      have hl : (q :: q' :: t).length = t.length + 2 := rfl
      rw [hl] at h1 hne
      obtain ⟨h3, h4, h5, h6⟩ := ih h1 (by omega)
      have h7 : r'.2 = t.length + 2 := h5 (by omega)
      refine ⟨.cons ⟨_, ht, .inr ⟨rfl, by omega, ?_⟩⟩ h3, h4, fun hw1 => ?_, .inr ⟨a, by simp, _, ht, by rw [hl, h7]⟩⟩
      · rw [h7]; exact translateArg_range ht
      · show r'.2 = w
        rw [h7]
        by_contra hc
        exact hne ⟨hw1, hc⟩

theorem Kept.picks {regs : List Reg} {w : ℕ} {a : Arg} {p : ℕ × Bool} (h : Kept regs w a p) {j : ℕ} (hj : j < w) :
    Picks regs j a (pick j p) := by
  obtain ⟨t, ht, ⟨hp, rfl⟩ | ⟨hp, hw, rfl⟩⟩ := h
  · exact ⟨_, ht, .inl (by simp [pick, hp])⟩
  · refine ⟨_, ht, .inr ⟨by simp; omega, ?_⟩⟩
    rw [List.getElem?_range' hj]
    simp [pick, hp]

theorem Kept.length {regs : List Reg} {w : ℕ} {a : Arg} {p : ℕ × Bool} (h : Kept regs w a p) :
    ∃ t, translateArg regs a = .ok t ∧ (t.length = 1 ∨ t.length = w) := by
  obtain ⟨t, ht, ⟨hp, rfl⟩ | ⟨hp, hw, rfl⟩⟩ := h
  · exact ⟨_, ht, .inl rfl⟩
  · exact ⟨_, ht, .inr (by simp)⟩

theorem Kept.mono {regs : List Reg} {w w' : ℕ} {a : Arg} {p : ℕ × Bool} (h : Kept regs w a p) (hw : w ≠ 1 → w' = w) :
    Kept regs w' a p := by
  obtain ⟨t, ht, ⟨hp, rfl⟩ | ⟨hp, hw1, rfl⟩⟩ := h
  · exact ⟨_, ht, .inl ⟨hp, rfl⟩⟩
  · rw [hw (by omega)]
    exact ⟨_, ht, .inr ⟨hp, hw1, rfl⟩⟩

/-- The controls of the modifiers, and the rest. -/
theorem modsMean_of {B : List ℕ → (State → State) → Prop} {ms : List Mod} (hp : noPow ms) {qs : List ℕ} {Q : ℕ → Prop}
    {f g : State → State} (hr : Rev Q f g) (hlen : (polarities ms).length ≤ qs.length)
    (hB : B (qs.drop (polarities ms).length) f) (hQ : ∀ q ∈ qs.take (polarities ms).length, ¬ Q q) :
    ModsMean B ms qs (ctl (qs.zip (polarities ms)).toFinset (cond (parity ms) g f)) := by
  induction ms generalizing qs with
  | nil =>
    simp only [polarities, List.zip_nil_right, List.toFinset_nil, ctl_empty, parity, cond_false]
    exact .nil (by simpa [polarities] using hB)
  | cons m ms ih =>
    cases m with
    | ctrl pos n =>
      simp only [polarities, List.length_append, List.length_replicate] at hlen hB hQ
      have h1 := ih (qs := qs.drop n) (by simpa [noPow] using hp) (by simp; omega) (by rw [List.drop_drop]; exact hB) (by
        intro q hq
        apply hQ
        rw [List.take_add]
        exact List.mem_append_right _ hq)
      have h2 := ModsMean.ctrl (pos := pos) (n := n) (qs := qs) (by omega) h1
      rw [← ctl_union] at h2
      simp only [parity, polarities]
      convert h2 using 3
      rw [← List.toFinset_append]
      congr 1
      conv_lhs => rw [← List.take_append_drop n qs]
      rw [List.zip_append (by simp; omega)]
      congr 1
      apply List.ext_getElem
      · simp
      · intro i h1 h2
        simp
    | inv =>
      have h1 := ih (qs := qs) (by simpa [noPow] using hp) hlen hB hQ
      refine .inv h1 ?_
      simp only [polarities, parity]
      have hc : ∀ q ∈ ctrlQubits (qs.zip (polarities ms)).toFinset, ¬ Q q := by
        intro q hq
        obtain ⟨c, hc, rfl⟩ := Finset.mem_image.1 hq
        rw [List.mem_toFinset] at hc
        refine hQ _ ?_
        obtain ⟨i, hi, rfl⟩ := List.mem_iff_getElem.1 hc
        rw [List.length_zip] at hi
        rw [List.getElem_zip]
        simp only [polarities]
        rw [List.mem_take_iff_getElem]
        exact ⟨i, by omega, rfl⟩
      cases hpar : parity ms
      · simpa using (hr.ctl hc).undo
      · simpa using (hr.symm.ctl hc).undo
    | pow => exact absurd (by simp) hp

theorem polarities_append (ms ms' : List Mod) : polarities (ms ++ ms') = polarities ms ++ polarities ms' := by
  induction ms with
  | nil => rfl
  | cons m ms ih => cases m <;> simp [polarities, ih]

theorem parity_implicit (ms : List Mod) (k : ℕ) : parity (ms ++ [.ctrl true k]) = parity ms := by
  induction ms with
  | nil => rfl
  | cons m ms ih => cases m <;> simp [parity, ih]

theorem polarities_pos {ms : List Mod} (h : ∀ n, Mod.ctrl false n ∉ ms) : polarities ms = List.replicate (polarities ms).length true := by
  induction ms with
  | nil => rfl
  | cons m ms ih =>
    have ih := ih fun n hn => h n (by simp [hn])
    cases m with
    | ctrl pos n =>
      cases pos with
      | false => exact absurd (by simp) (h n)
      | true =>
        simp only [polarities, List.length_append, List.length_replicate, List.replicate_add]
        rw [← ih]
    | inv => exact ih
    | pow => exact ih

theorem zip_split (qs : List ℕ) (p : List Bool) (m : ℕ) (h : p.length + m ≤ qs.length) :
    (qs.take (p.length + m)).zip (p ++ List.replicate m true) = qs.zip p ++ ((qs.drop p.length).take m).map fun q => (q, true) := by
  rw [List.take_add, List.zip_append (by simp; omega)]
  congr 1
  · apply List.ext_getElem
    · simp [Nat.min_comm]
    · intro i h1 h2
      simp
  · apply List.ext_getElem
    · simp
    · intro i h1 h2
      simp

theorem invertIf_denote {inv : Bool} {o u : UOp ℝ} (wf : o.WFB) (h : invertIf inv o = .ok u) {F F' : State → State}
    (hF : o.denote = some F) (hU : UOp.Undo F F') : u.WFB ∧ u.denote = some (cond inv F' F) := by
  unfold invertIf at h
  cases inv with
  | false =>
    simp only [Bool.false_eq_true, if_false, Res.ok.injEq] at h
    subst h
    exact ⟨wf, hF⟩
  | true =>
    simp only [if_true] at h
    cases hi : o.invert with
    | none => rw [hi] at h; cases h
    | some o' =>
      rw [hi] at h
      simp only [ofOption, Res.ok.injEq] at h
      subst h
      obtain ⟨w, g, h1, h2⟩ := UOp.invert_undoB o o' F wf hi hF
      rw [Undo.unique hU h2]
      exact ⟨w, h1⟩

theorem unwrap_leaves (o : UOp ℝ) : (unwrap o).leaves = o.leaves := by
  unfold unwrap
  split
  · simp [UOp.leavesL]
  · rfl

theorem applyGate_means {call : List Reg → Vals → Call E → Res (UOp ℝ)} {C : List Reg → Vals → Call E → (State → State) → Prop}
    {ρ ρ₀ : Vals} {g : Gate E} {k : ℕ} {ms : List Mod} {qs : List ℕ} {vals : List ℝ} {u : UOp ℝ}
    (hnd : qs.Nodup) (hp : noPow ms) (hlen : qs.length = g.nControls + k + (polarities ms).length + g.nTargets)
    (hcomm : List.replicate (g.nControls + k) true ++ polarities ms = polarities ms ++ List.replicate (g.nControls + k) true)
    (hstd : ∀ nC nT nP ty, g = .std nC nT nP ty → ∀ cs ts, ts.length = nT → ∃ f, (⟨ty, vals, cs, ts⟩ : StdOp ℝ).denote = some f)
    (hbody : ∀ ps names body ts ops, g = .compound ps names body → ts.length = names.length →
      runBody call (bodyRegs names ts) (bindParams ps vals ρ) names body = .ok ops →
      ∃ F, BodyMeans (C (bodyRegs names ts) (bindParams ps vals ρ₀)) body F ∧ UOp.denoteL ops = some F ∧ ∀ o ∈ ops, o.WFB)
    (h : applyGate call ρ g (qs.drop (g.nControls + k + (polarities ms).length))
      ((qs.take (g.nControls + k + (polarities ms).length)).zip (List.replicate (g.nControls + k) true ++ polarities ms))
      vals (parity ms) = .ok u) :
    ∃ f, ModsMean (GateMeans C ρ₀ g vals) (ms ++ [.ctrl true k]) qs f ∧ u.denote = some f ∧ u.WFB := by
  set p := polarities (ms ++ [.ctrl true k]) with hpp
  have hpl : p = polarities ms ++ List.replicate k true := by rw [hpp, polarities_append]; simp [polarities]
  have hN : g.nControls + k + (polarities ms).length = p.length + g.nControls := by rw [hpl]; simp; omega
  have hP : List.replicate (g.nControls + k) true ++ polarities ms = p ++ List.replicate g.nControls true := by
    rw [hcomm, hpl, Nat.add_comm, List.replicate_add, List.append_assoc]
  rw [hN, hP, zip_split qs p _ (by omega)] at h
  have hnp : noPow (ms ++ [.ctrl true k]) := by
    unfold noPow at hp ⊢
    simp [hp]
  have hdisj : ∀ q ∈ qs.take p.length, q ∉ qs.drop p.length := fun q hq hq' =>
    List.disjoint_of_nodup_append (by rw [List.take_append_drop]; exact hnd) hq hq'
  have hmem : ∀ q ∈ ctrlQubits (qs.zip p).toFinset, q ∈ qs.take p.length := by
    intro q hq
    obtain ⟨c, hc, rfl⟩ := Finset.mem_image.1 hq
    rw [List.mem_toFinset] at hc
    obtain ⟨i, hi, rfl⟩ := List.mem_iff_getElem.1 hc
    rw [List.length_zip] at hi
    rw [List.getElem_zip, List.mem_take_iff_getElem]
    exact ⟨i, by omega, rfl⟩
  rw [← parity_implicit ms k] at h
  match g, hlen, hstd, hbody, h with
  | .std nC nT nP ty, hlen, hstd, _, h =>
    simp only [Gate.nControls, Gate.nTargets] at hlen hN h
    simp only [applyGate] at h
    obtain ⟨b, hb⟩ := hstd nC nT nP ty rfl (((qs.drop p.length).take nC).map fun q => (q, true)).toFinset
      ((qs.drop p.length).drop nC) (by simp; omega)
    have hwf : (⟨ty, vals, (((qs.drop p.length).take nC).map fun q => (q, true)).toFinset, (qs.drop p.length).drop nC⟩ : StdOp ℝ).WFB := by
      intro _
      have hnd' : (qs.drop p.length).Nodup := hnd.sublist (List.drop_sublist _ _)
      refine ⟨hnd'.sublist (List.drop_sublist _ _), fun q hq hq' => ?_⟩
      obtain ⟨c, hc, rfl⟩ := Finset.mem_image.1 hq'
      simp only [List.mem_toFinset, List.mem_map] at hc
      obtain ⟨q, hq1, rfl⟩ := hc
      exact List.disjoint_of_nodup_append (by rw [List.take_append_drop]; exact hnd') hq1 hq
    obtain ⟨b', hr⟩ := StdOp.rev hwf hb
    have hQ : ∀ q ∈ qs.take p.length, ¬ q ∈ (qs.drop p.length).drop nC := fun q hq hq' =>
      hdisj q hq (List.mem_of_mem_drop hq')
    have hmm := modsMean_of (B := GateMeans C ρ₀ (.std nC nT nP ty) vals) hnp (qs := qs) hr (by rw [← hpp]; omega)
      (by rw [← hpp]; exact ⟨by simp; omega, hb⟩) (by rw [← hpp]; exact hQ)
    rw [← hpp] at hmm
    refine ⟨_, hmm, ?_⟩
    have hc : ∀ q ∈ ctrlQubits (qs.zip p).toFinset, ¬ q ∈ (qs.drop p.length).drop nC := fun q hq => hQ q (hmem q hq)
    have hd := StdOp.denote_withControls hb (qs.zip p).toFinset
    have hadd : (UOp.std ⟨ty, vals, (((qs.drop p.length).take nC).map fun q => (q, true)).toFinset, (qs.drop p.length).drop nC⟩ :
        UOp ℝ).addControls (qs.zip p).toFinset = some (.std ⟨ty, vals, (qs.zip p).toFinset ∪
          (((qs.drop p.length).take nC).map fun q => (q, true)).toFinset, (qs.drop p.length).drop nC⟩) := by
      unfold UOp.addControls
      rw [if_pos, UOp.withControls]
      intro s hs c hcc
      rw [UOp.leaves_std, List.mem_singleton] at hs
      subst hs
      have hc1 := hmem c.1 (Finset.mem_image_of_mem _ hcc)
      have h1 := hdisj c.1 hc1
      simp only [StdOp.actsOn, Bool.or_eq_false_iff, decide_eq_false_iff_not]
      refine ⟨hQ _ hc1, fun hh => h1 ?_⟩
      obtain ⟨c', hc', he⟩ := Finset.mem_image.1 hh
      simp only [List.mem_toFinset, List.mem_map] at hc'
      obtain ⟨q, hq1, rfl⟩ := hc'
      rw [← he]
      exact List.mem_of_mem_take hq1
    have hwf' := UOp.WFB.addControls (o := .std _) (by
      intro s hs
      rw [UOp.leaves_std, List.mem_singleton] at hs
      subst hs
      exact hwf) hadd
    rw [List.toFinset_append, ← List.drop_drop] at h
    have := invertIf_denote hwf' h (by rw [UOp.denote]; exact hd) (hr.ctl hc).undo
    refine ⟨?_, this.1⟩
    rw [this.2]
    cases parity (ms ++ [.ctrl true k]) <;> rfl
  | .compound ps names body, hlen, _, hbody, h =>
    simp only [Gate.nControls, Gate.nTargets, Nat.zero_add] at hlen hN h
    simp only [applyGate, Nat.add_zero, List.take_zero, List.map_nil, List.append_nil] at h
    obtain ⟨ops, h1, h⟩ := Res.bind_ok h
    obtain ⟨o, h2, h⟩ := Res.bind_ok h
    obtain ⟨o', h3, h⟩ := Res.bind_ok h
    simp only [Res.ok.injEq] at h
    subst h
    obtain ⟨F, hF1, hF2, hF3⟩ := hbody ps names body _ ops rfl (by simp; omega) h1
    have hwf : (UOp.compound ops).WFB := UOp.WFB.compound hF3
    have hden : (UOp.compound ops).denote = some F := by rw [UOp.denote_compound]; exact hF2
    obtain ⟨F', hr⟩ := UOp.rev hwf hden
    cases hadd : (UOp.compound ops).addControls (qs.zip p).toFinset with
    | none => rw [hadd] at h2; cases h2
    | some o1 =>
      rw [hadd] at h2
      simp only [ofOption, Res.ok.injEq] at h2
      subst h2
      have hacts : ∀ s ∈ (UOp.compound ops).leaves, ∀ c ∈ (qs.zip p).toFinset, s.actsOn c.1 = false := by
        unfold UOp.addControls at hadd
        split_ifs at hadd with hh
        exact hh
      have hc : ∀ q ∈ ctrlQubits (qs.zip p).toFinset, ¬ ∃ s ∈ (UOp.compound ops).leaves, q ∈ s.targets := by
        rintro q hq ⟨s, hs, ht⟩
        obtain ⟨c, hcc, rfl⟩ := Finset.mem_image.1 hq
        have := hacts s hs c hcc
        simp [StdOp.actsOn, ht] at this
      have hQ : ∀ q ∈ qs.take p.length, ¬ ∃ s ∈ (UOp.compound ops).leaves, q ∈ s.targets := by
        intro q hq
        apply hc
        rw [List.mem_take_iff_getElem] at hq
        obtain ⟨i, hi, rfl⟩ := hq
        refine Finset.mem_image.2 ⟨(qs[i], p[i]), ?_, rfl⟩
        rw [List.mem_toFinset, List.mem_iff_getElem]
        exact ⟨i, by rw [List.length_zip]; omega, by simp⟩
      have hmm := modsMean_of (B := GateMeans C ρ₀ (.compound ps names body) vals) hnp (qs := qs) hr (by rw [← hpp]; omega)
        (by rw [← hpp]; exact ⟨by simp; omega, hF1⟩) (by rw [← hpp]; exact hQ)
      rw [← hpp] at hmm
      refine ⟨_, hmm, ?_⟩
      have := invertIf_denote (hwf.addControls hadd) h3 (UOp.denote_addControls hwf hadd hden) (hr.ctl hc).undo
      refine ⟨?_, fun s hs => this.1 s (by rwa [unwrap_leaves] at hs)⟩
      rw [UOp.denote_leaves, unwrap_leaves, ← UOp.denote_leaves, this.2]
      cases parity (ms ++ [.ctrl true k]) <;> rfl

theorem lookup_good {X : Exprs E} {G : Gates E} {compat : Bool} (hG : GoodGates X G compat) {name : String} {n k : ℕ} {g : Gate E}
    (h : lookup X G compat name n = some (g, k)) :
    (∀ nC nT nP type, g = .std nC nT nP type → ValidStd nT nP type) ∧
    ∀ ps qs body, g = .compound ps qs body → ∀ c, Stmt.call c ∈ body → Plain X G compat c ∧
      ∀ e ∈ c.args, DependsOn X e fun x => x ∈ ps ∨ ¬ ParamName X G compat x := by
  have key : ∀ name, G name = some g → _ := fun name hn =>
    And.intro (fun nC nT nP type (e : g = .std nC nT nP type) => hG.std name nC nT nP type (hn.trans (congrArg some e)))
      fun ps qs body (e : g = .compound ps qs body) c hc =>
        And.intro (hG.plain name ps qs body (hn.trans (congrArg some e)) c hc)
          (hG.scope name ps qs body (hn.trans (congrArg some e)) c hc)
  unfold lookup at h
  split at h
  · rename_i g' hg'
    simp only [Option.some.injEq, Prod.mk.injEq] at h
    obtain ⟨rfl, rfl⟩ := h
    exact key _ hg'
  · split_ifs at h with h1 h2
    · simp only [Option.some.injEq, Prod.mk.injEq] at h
      obtain ⟨rfl, rfl⟩ := h
      refine ⟨by intros; simp_all [mcGate], ?_⟩
      intro ps qs body e c hc
      simp only [mcGate, Gate.compound.injEq] at e
      obtain ⟨rfl, _, rfl⟩ := e
      simp only [List.mem_singleton, Stmt.call.injEq] at hc
      subst hc
      refine ⟨fun g k _ => .inr fun n => by simp, fun e he => ?_⟩
      by_cases hph : name = "mcphase"
      · simp only [hph, if_true, List.mem_singleton] at he
        subst he
        intro ρ ρ' hρ
        rw [X.ev_ident, X.ev_ident]
        exact hρ _ (.inl (by simp [hph]))
      · simp [hph] at he
    · rw [Option.map_eq_some_iff] at h
      obtain ⟨g', hg', e⟩ := h
      simp only [Prod.mk.injEq] at e
      obtain ⟨rfl, rfl⟩ := e
      exact key _ hg'

theorem runBody_means {call : List Reg → Vals → Call E → Res (UOp ℝ)} {C : Call E → (State → State) → Prop} {regs : List Reg}
    {ρ : Vals} {formals : List String} {body : List (Stmt E)} {ops : List (UOp ℝ)}
    (hcall : ∀ c u, Stmt.call c ∈ body → call regs ρ c = .ok u → ∃ f, C c f ∧ u.denote = some f ∧ u.WFB)
    (h : runBody call regs ρ formals body = .ok ops) :
    ∃ F, BodyMeans C body F ∧ UOp.denoteL ops = some F ∧ ∀ o ∈ ops, o.WFB := by
  have cons_denote : ∀ {o : UOp ℝ} {l : List (UOp ℝ)} {f F : State → State}, o.denote = some f → UOp.denoteL l = some F →
      UOp.denoteL (o :: l) = some fun ψ => F (f ψ) := by
    intro o l f F h1 h2
    rw [UOp.denoteL_leaves] at h2 ⊢
    rw [UOp.denote_leaves] at h1
    exact denoteSeq_append h1 h2
  induction body generalizing ops with
  | nil =>
    simp only [runBody, Res.ok.injEq] at h
    subst h
    exact ⟨_, .nil, rfl, by simp⟩
  | cons s body ih =>
    have ih := fun ops h => ih (ops := ops) (fun c u hc => hcall c u (by simp [hc])) h
    cases s with
    | barrier as =>
      simp only [runBody] at h
      obtain ⟨qs, _, h⟩ := Res.bind_ok h
      obtain ⟨r, h1, h⟩ := Res.bind_ok h
      simp only [Res.ok.injEq] at h
      subst h
      obtain ⟨F, hF1, hF2, hF3⟩ := ih r h1
      refine ⟨F, .barrier hF1, cons_denote (f := fun ψ => ψ) (by rw [UOp.denote]; exact StdOp.denote_barrier rfl) hF2, ?_⟩
      intro o ho
      rcases List.mem_cons.1 ho with rfl | ho
      · intro s hs hb
        rw [UOp.leaves_std, List.mem_singleton] at hs
        subst hs
        exact absurd rfl hb
      · exact hF3 o ho
    | call c =>
      simp only [runBody] at h
      split_ifs at h
      obtain ⟨o, h0, h⟩ := Res.bind_ok h
      obtain ⟨r, h1, h⟩ := Res.bind_ok h
      simp only [Res.ok.injEq] at h
      subst h
      obtain ⟨f, hf1, hf2, hf3⟩ := hcall c o (by simp) h0
      obtain ⟨F, hF1, hF2, hF3⟩ := ih r h1
      refine ⟨_, .call hf1 hF1, cons_denote hf2 hF2, ?_⟩
      intro o' ho
      rcases List.mem_cons.1 ho with rfl | ho
      · exact hf3
      · exact hF3 o' ho

theorem mapRes_means {f : ℕ → Res (UOp ℝ)} {I : ℕ → (State → State) → Prop} {l : List ℕ} {ops : List (UOp ℝ)}
    (hI : ∀ j ∈ l, ∀ u, f j = .ok u → ∃ F, I j F ∧ u.denote = some F ∧ u.WFB) (h : mapRes f l = .ok ops) :
    ∃ F, SeqMeans I l F ∧ UOp.denoteL ops = some F ∧ ∀ o ∈ ops, o.WFB := by
  induction l generalizing ops with
  | nil =>
    simp only [mapRes, Res.ok.injEq] at h
    subst h
    exact ⟨_, .nil, rfl, by simp⟩
  | cons j l ih =>
    simp only [mapRes] at h
    obtain ⟨o, h0, h⟩ := Res.bind_ok h
    obtain ⟨r, h1, h⟩ := Res.bind_ok h
    simp only [Res.ok.injEq] at h
    subst h
    obtain ⟨f, hf1, hf2, hf3⟩ := hI j (by simp) o h0
    obtain ⟨F, hF1, hF2, hF3⟩ := ih (fun j hj => hI j (by simp [hj])) h1
    refine ⟨_, .cons hf1 hF1, ?_, ?_⟩
    · rw [UOp.denoteL_leaves] at hF2 ⊢
      rw [UOp.denote_leaves] at hf2
      exact denoteSeq_append hf2 hF2
    · intro o' ho
      rcases List.mem_cons.1 ho with rfl | ho
      · exact hf3
      · exact hF3 o' ho

theorem bindParams_own {ps : List String} {vals : List ℝ} (h : vals.length = ps.length) {x : String} (hx : x ∈ ps) (ρ ρ' : Vals) :
    bindParams ps vals ρ x = bindParams ps vals ρ' x := by
  have : ((ps.zip vals).lookup x).isSome := by
    induction ps generalizing vals with
    | nil => cases hx
    | cons p ps ih =>
      cases vals with
      | nil => cases h
      | cons v vals =>
        rw [List.zip_cons_cons, List.lookup_cons]
        by_cases hp : x = p
        · simp [hp]
        · rw [show (x == p) = false by simpa using hp]
          exact ih (by simpa using h) ((List.mem_cons.1 hx).resolve_left hp)
  unfold bindParams
  obtain ⟨v, hv⟩ := Option.isSome_iff_exists.1 this
  rw [hv]
  rfl

theorem bindParams_other {ps : List String} {vals : List ℝ} {x : String} (hx : x ∉ ps) (ρ : Vals) : bindParams ps vals ρ x = ρ x := by
  have : (ps.zip vals).lookup x = none := by
    rw [List.lookup_eq_none_iff]
    rintro ⟨a, b⟩ hp
    have := (List.of_mem_zip hp).1
    simp only [bne_iff_ne, ne_eq]
    rintro rfl
    exact hx this
  unfold bindParams
  rw [this]
  rfl

theorem mapM_congr_ev {X : Exprs E} {ρ ρ' : Vals} {l : List E} (h : ∀ e ∈ l, X.ev ρ e = X.ev ρ' e) : l.mapM (X.ev ρ) = l.mapM (X.ev ρ') := by
  induction l with
  | nil => rfl
  | cons e l ih =>
    rw [List.mapM_cons, List.mapM_cons, h e (by simp), ih fun e he => h e (by simp [he])]

theorem mapM_length {α β : Type} {f : α → Option β} {l : List α} {r : List β} (h : l.mapM f = some r) : r.length = l.length := by
  induction l generalizing r with
  | nil => simp at h; subst h; rfl
  | cons a l ih =>
    obtain ⟨b, r', _, h2, rfl⟩ := UOp.mapM_cons_some h
    simp [ih h2]

theorem evalCall_means {X : Exprs E} {G : Gates E} {compat : Bool} (hG : GoodGates X G compat) (ρ₀ : Vals) (n : ℕ) :
    ∀ (regs : List Reg) (ρ ρs : Vals) (c : Call E) (u : UOp ℝ), evalCall X G compat n regs ρ c = .ok u → Plain X G compat c →
      (∀ x, ¬ ParamName X G compat x → ρ x = ρ₀ x) → (∀ e ∈ c.args, X.ev ρ e = X.ev ρs e) →
      ∃ f, CallMeans X G compat ρ₀ n regs ρs c f ∧ u.denote = some f ∧ u.WFB := by
  induction n with
  | zero => intro regs ρ ρs c u h; cases h
  | succ n ih =>
    intro regs ρ ρs c u h hplain hρ hargs
    rw [evalCall] at h
    split at h
    · cases h
    rename_i g k hlk
    split_ifs at h with h1 h2
    obtain ⟨m, hm, h⟩ := Res.bind_ok h
    split_ifs at h with h3
    split at h
    · cases h
    rename_i vals hvals
    obtain ⟨t, ht, h⟩ := Res.bind_ok h
    obtain ⟨cc, hcc, h⟩ := Res.bind_ok h
    obtain ⟨hp, m1, m2, m3, m4, m5⟩ := modLoop_ok hm (by omega) (by simp [Function.comp_def])
    obtain ⟨t1, t2, t3, t4⟩ := collect_ok ht (by omega)
    obtain ⟨c1, c2, c3, c4⟩ := collect_ok hcc t2
    have hkept : List.Forall₂ (Kept regs cc.2) c.operands (cc.1 ++ t.1) := by
      conv => arg 2; rw [← List.take_append_drop m.1 c.operands]
      refine List.rel_append (by rw [← m3]; exact c1) (t1.imp fun a p hk => hk.mono c3)
    have hcl : cc.1.length = m.1 := by
      have := c1.length_eq
      rw [m3, List.length_take] at this
      omega
    have hvl : vals.length = g.nParams := by rw [mapM_length hvals]; omega
    obtain ⟨g1, g2⟩ := lookup_good hG hlk
    -- one instance
    have hinst : ∀ j, j < cc.2 → ∀ u, instanceOf (evalCall X G compat n) ρ g t.1 cc.1 (m.2.1.map Prod.snd) vals m.2.2 j = .ok u →
        ∃ f, (∃ qs, List.Forall₂ (Picks regs j) c.operands qs ∧ qs.Nodup ∧
          ModsMean (GateMeans (CallMeans X G compat ρ₀ n) ρ₀ g vals) (c.mods ++ [.ctrl true k]) qs f) ∧ u.denote = some f ∧ u.WFB := by
      intro j hj u hu
      unfold instanceOf at hu
      split_ifs at hu with hnd
      have hpicks : List.Forall₂ (Picks regs j) c.operands (cc.1.map (pick j) ++ t.1.map (pick j)) := by
        rw [← List.map_append, List.forall₂_map_right_iff]
        exact hkept.imp fun a p hk => hk.picks hj
      have hl1 : (cc.1.map (pick j)).length = g.nControls + k + (polarities c.mods).length := by
        rw [List.length_map, hcl, m1]
      have hl2 : (t.1.map (pick j)).length = g.nTargets := by
        rw [List.length_map, ← t1.length_eq]; omega
      rw [m4, m5, Bool.false_xor] at hu
      have hpol : (List.map (fun a => (a, true)) (c.operands.take (g.nControls + k))).map Prod.snd = List.replicate (g.nControls + k) true := by
        rw [List.map_map, show (Prod.snd ∘ fun a : Arg => (a, true)) = fun _ => true from rfl, List.map_const', List.length_take]
        congr 1
        omega
      rw [hpol] at hu
      obtain ⟨f, hf1, hf2, hf3⟩ := applyGate_means (C := CallMeans X G compat ρ₀ n) (ρ₀ := ρ₀) (g := g) (k := k) (ms := c.mods)
        (qs := cc.1.map (pick j) ++ t.1.map (pick j)) (vals := vals) (u := u) (call := evalCall X G compat n) (ρ := ρ) hnd hp
        (by rw [List.length_append, hl1, hl2]) (by
          rcases hplain g k hlk with h0 | h0
          · rw [h0]; simp
          · rw [polarities_pos h0, ← List.replicate_add, ← List.replicate_add, Nat.add_comm])
        (fun nC nT nP ty e cs ts hts => g1 nC nT nP ty e vals cs ts (by rw [hvl, e]; rfl) hts)
        (fun ps names body ts ops e hts hrun => by
          refine runBody_means (fun c' u' hc' hu' => ?_) hrun
          obtain ⟨hpl, hsc⟩ := g2 ps names body e c' hc'
          have hpn : ∀ x, ¬ ParamName X G compat x → x ∉ ps := fun x hx hxp =>
            hx ⟨c.name, c.operands.length, g, k, hlk, by rw [e]; exact hxp⟩
          refine ih _ _ _ c' u' hu' hpl (fun x hx => ?_) (fun e' he' => hsc e' he' _ _ fun x hx => ?_)
          · rw [bindParams_other (hpn x hx)]; exact hρ x hx
          · by_cases hxp : x ∈ ps
            · exact bindParams_own (by rw [hvl, e]; rfl) hxp _ _
            · rw [bindParams_other hxp, bindParams_other hxp]
              exact hρ x (hx.resolve_left hxp))
        (by rw [← hl1, List.take_left', List.drop_left'] <;> first | exact hu | rfl)
      exact ⟨f, ⟨_, hpicks, hnd, hf1⟩, hf2, hf3⟩
    have hbroad : Broadcast regs c.operands cc.2 := by
      refine ⟨fun a ha => ?_, ?_⟩
      · have hmem : ∀ {l : List Arg} {l' : List (ℕ × Bool)}, List.Forall₂ (Kept regs cc.2) l l' → a ∈ l → ∃ p, Kept regs cc.2 a p := by
          intro l l' hf hal
          induction hf with
          | nil => cases hal
          | cons h _ ih =>
            rcases List.mem_cons.1 hal with rfl | hal
            · exact ⟨_, h⟩
            · exact ih hal
        obtain ⟨p, hk⟩ := hmem hkept ha
        exact hk.length
      · by_cases hw : cc.2 = 1
        · exact .inl hw
        · refine .inr ⟨by omega, ?_⟩
          rcases c4 with c4 | ⟨a, ha, hh⟩
          · rcases t4 with t4 | ⟨a, ha, tt, htt, hl⟩
            · omega
            · exact ⟨a, List.mem_of_mem_drop ha, tt, htt, by omega⟩
          · rw [m3] at ha
            exact ⟨a, List.mem_of_mem_take ha, hh⟩
    unfold instances at h
    have hargs' := mapM_congr_ev hargs
    rw [hargs'] at hvals
    split_ifs at h with hw1
    · obtain ⟨f, hf1, hf2, hf3⟩ := hinst 0 (by omega) u h
      refine ⟨f, ⟨g, k, vals, cc.2, hlk, hvals, hvl, hbroad, ?_⟩, hf2, hf3⟩
      rw [hw1]
      exact SeqMeans.cons (f := fun ψ => ψ) (g := f) hf1 .nil
    · obtain ⟨ops, ho, h⟩ := Res.bind_ok h
      simp only [Res.ok.injEq] at h
      subst h
      obtain ⟨F, hF1, hF2, hF3⟩ := mapRes_means (fun j hj u hu => hinst j (List.mem_range.1 hj) u hu) ho
      exact ⟨F, ⟨g, k, vals, cc.2, hlk, hvals, hvl, hbroad, hF1⟩, by rw [UOp.denote_compound]; exact hF2, UOp.WFB.compound hF3⟩

/-! ### The meaning is unique -/

theorem ModsMean.unique {B : List ℕ → (State → State) → Prop} (hB : ∀ qs f f', B qs f → B qs f' → f = f') {ms : List Mod} {qs : List ℕ}
    {f f' : State → State} (h : ModsMean B ms qs f) (h' : ModsMean B ms qs f') : f = f' := by
  induction h generalizing f' with
  | nil h => cases h' with | nil h' => exact hB _ _ _ h h'
  | ctrl _ _ ih => cases h' with | ctrl _ h' => rw [ih h']
  | inv _ hu ih =>
    cases h' with
    | inv h' hu' =>
      have := ih h'
      subst this
      exact Undo.unique hu hu'

theorem BodyMeans.unique {C : Call E → (State → State) → Prop} (hC : ∀ c f f', C c f → C c f' → f = f') {l : List (Stmt E)}
    {f f' : State → State} (h : BodyMeans C l f) (h' : BodyMeans C l f') : f = f' := by
  induction h generalizing f' with
  | nil => cases h'; rfl
  | barrier _ ih => cases h' with | barrier h' => exact ih h'
  | call h _ ih => cases h' with | call h1 h2 => rw [ih h2, hC _ _ _ h h1]

theorem SeqMeans.unique {I : ℕ → (State → State) → Prop} (hI : ∀ j f f', I j f → I j f' → f = f') {l : List ℕ}
    {f f' : State → State} (h : SeqMeans I l f) (h' : SeqMeans I l f') : f = f' := by
  induction h generalizing f' with
  | nil => cases h'; rfl
  | cons h _ ih => cases h' with | cons h1 h2 => rw [ih h2, hI _ _ _ h h1]

theorem Picks.unique {regs : List Reg} {j : ℕ} {a : Arg} {q q' : ℕ} (h : Picks regs j a q) (h' : Picks regs j a q') : q = q' := by
  obtain ⟨t, ht, h⟩ := h
  obtain ⟨t', ht', h'⟩ := h'
  rw [ht, Res.ok.injEq] at ht'
  subst ht'
  rcases h with rfl | ⟨h1, h2⟩ <;> rcases h' with h' | ⟨h3, h4⟩
  · simpa using h'
  · simp at h3
  · subst h'; simp at h1
  · rw [h2] at h4; simpa using h4

theorem Broadcast.unique {regs : List Reg} {as : List Arg} {w w' : ℕ} (h : Broadcast regs as w) (h' : Broadcast regs as w') : w = w' := by
  have key : ∀ {w w' : ℕ}, Broadcast regs as w → Broadcast regs as w' → 1 < w → w = w' := by
    rintro w w' ⟨h1, h2⟩ ⟨h3, h4⟩ hw
    obtain ⟨a, ha, t, ht, hl⟩ := (h2.resolve_left (by omega)).2
    obtain ⟨t', ht', h5⟩ := h3 a ha
    rw [ht, Res.ok.injEq] at ht'
    subst ht'
    omega
  by_cases h1 : 1 < w
  · exact key h h' h1
  · by_cases h2 : 1 < w'
    · exact (key h' h h2).symm
    · have := h.2; have := h'.2; omega

theorem CallMeans.unique {X : Exprs E} {G : Gates E} {compat : Bool} {ρ₀ : Vals} {n : ℕ} {regs : List Reg} {ρ : Vals} {c : Call E}
    {f f' : State → State} (h : CallMeans X G compat ρ₀ n regs ρ c f) (h' : CallMeans X G compat ρ₀ n regs ρ c f') : f = f' := by
  induction n generalizing regs ρ c f f' with
  | zero => exact h.elim
  | succ n ih =>
    obtain ⟨g, k, vals, w, h1, h2, h3, h4, h5⟩ := h
    obtain ⟨g', k', vals', w', h1', h2', h3', h4', h5'⟩ := h'
    rw [h1, Option.some.injEq, Prod.mk.injEq] at h1'
    obtain ⟨rfl, rfl⟩ := h1'
    rw [h2, Option.some.injEq] at h2'
    subst h2'
    obtain rfl := h4.unique h4'
    refine SeqMeans.unique ?_ h5 h5'
    rintro j f f' ⟨qs, a1, a2, a3⟩ ⟨qs', b1, b2, b3⟩
    have hq : qs = qs' := by
      have : ∀ {l : List Arg} {qs qs' : List ℕ}, List.Forall₂ (Picks regs j) l qs → List.Forall₂ (Picks regs j) l qs' → qs = qs' := by
        intro l qs qs' ha hb
        induction ha generalizing qs' with
        | nil => cases hb; rfl
        | cons h _ ih => cases hb with | cons h' hb => rw [h.unique h', ih hb]
      exact this a1 b1
    subst hq
    refine ModsMean.unique ?_ a3 b3
    intro qs f f' hf hf'
    cases g with
    | std nC nT nP ty => exact Option.some.inj (hf.2.symm.trans hf'.2)
    | compound ps names body => exact BodyMeans.unique (C := CallMeans X G compat ρ₀ n (bodyRegs names qs) (bindParams ps vals ρ₀)) (fun c f f' h h' => ih h h') hf.2 hf'.2

end MQT.QASM.GateCall
