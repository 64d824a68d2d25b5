/-
Properties of the import of conditions, gate calls and multi-controlled gates, and of the type checker (C76-C79).
-/
import Verif.QASM.StdGates
import Verif.QASM.Condition

set_option autoImplicit false

/-! ### C76: conditions -/

namespace MQT.QASM.Cond

open MQT.IR

/-- **C76.** An `if` statement whose condition passes the type checker, with the declared types in the environment, and is
`Supported`, is imported without undefined behaviour, and the imported operations perform the first block if the condition
holds and the second one if not, for every classical memory.
Missing from C76: the other conditions (`c76_constant_first`, `c76_index_ignored`, `c76_negated_comparison`,
`c76_negate`) and registers of more than 64 bits. -/
theorem c76_if_partial {cregs : List Reg} {s s' : TC} (hd : Declared cregs s) (hsize : ∀ r ∈ cregs, r.size ≤ 64) {e : CExpr}
    (hs : Supported e) (hc : s.checkIf e = .ok s') {α σ : Type} (den : α → σ → σ) (a b : Option α) :
    importIf cregs e a b ≠ .ub ∧ ∀ l, importIf cregs e a b = .ok l → ∀ m ψ, ∃ v, value cregs m e = some v ∧
      runCC den m l ψ = some ((if v ≠ 0 then a else b).elim ψ fun o => den o ψ) := by
  refine ⟨?_, fun l hl => importIf_run den (fun c h => translateCond_decides hd hsize hs hc h) hl⟩
  unfold importIf
  cases h : translateCond cregs e with
  | ub => exact absurd h (translateCond_not_ub hd hs hc)
  | throw => simp [Res.bind]
  | ok c =>
    obtain ⟨cc, cc', h1, h2, _⟩ := translateCond_decides hd hsize hs hc h
    cases a <;> cases b <;> simp [Res.bind, guarded, h1, h2]

/-- Two registers, of three bits and of one bit. -/
def regs2 : List Reg := [⟨0, 3, "c"⟩, ⟨3, 1, "d"⟩]
def env2 : TC := ⟨fun x => if x = "c" then some (.des .bit 3) else if x = "d" then some (.des .bit 1) else none, false⟩

theorem env2_declared : Declared regs2 env2 := by simp [Declared, regs2, env2]

/-- The memory `c = 5`, `d = 0`. -/
def mem2 : ℕ → Bool := fun i => i = 0 ∨ i = 2

example : ∃ s', env2.checkIf (.bin .lessThan (.ident "c" none) (.int false 6)) = .ok s' := ⟨_, rfl⟩
example : (importIf regs2 (.bin .lessThan (.ident "c" none) (.int false 6)) (some 10) (some 20)) =
    .ok [(CC.mkReg 0 3 6 .lt, 10), (CC.mkReg 0 3 6 .geq, 20)] := rfl
example : runCC (fun o ψ => o + ψ) mem2 [(CC.mkReg 0 3 6 .lt, 10), (CC.mkReg 0 3 6 .geq, 20)] 1 = some 11 := by decide
example : value regs2 mem2 (.ident "c" (some 1)) = some 0 := by decide

/-- **C76** fails for a constant in front: `if (6 < c)` is imported as `if (c < 6)`. -/
theorem c76_constant_first : ∃ s', env2.checkIf (.bin .lessThan (.int false 6) (.ident "c" none)) = .ok s' ∧
    ∃ l, importIf regs2 (.bin .lessThan (.int false 6) (.ident "c" none)) (some 10) none = .ok l ∧
      value regs2 mem2 (.bin .lessThan (.int false 6) (.ident "c" none)) = some 0 ∧
      runCC (fun o ψ => o + ψ) mem2 l 1 = some 11 :=
  ⟨_, rfl, _, rfl, by decide, by decide⟩

/-- **C76** fails for one bit compared with a constant: `if (c[0] == 1)` is imported as `if (c == 1)`. -/
theorem c76_index_ignored : ∃ s', env2.checkIf (.bin .equal (.ident "c" (some 0)) (.int false 1)) = .ok s' ∧
    ∃ l, importIf regs2 (.bin .equal (.ident "c" (some 0)) (.int false 1)) (some 10) none = .ok l ∧
      value regs2 mem2 (.bin .equal (.ident "c" (some 0)) (.int false 1)) = some 1 ∧
      runCC (fun o ψ => o + ψ) mem2 l 1 = some 1 :=
  ⟨_, rfl, _, rfl, by decide, by decide⟩

/-- **C76** fails for a negated comparison, and for constants: `if (!(c == 1))`, `if (true)` pass the type checker, and a
null pointer is dereferenced. -/
theorem c76_negated_comparison : (∃ s', env2.checkIf (.un .logicalNot (.bin .equal (.ident "c" none) (.int false 1))) = .ok s') ∧
    importIf regs2 (.un .logicalNot (.bin .equal (.ident "c" none) (.int false 1))) (some 10) none = .ub ∧
    (∃ s', env2.checkIf (.bool true) = .ok s') ∧ importIf regs2 (.bool true) (some 10) none = .ub :=
  ⟨⟨_, rfl⟩, rfl, ⟨_, rfl⟩, rfl⟩

/-- **C76** fails for a minus: `if (-d)` is imported as `if (!d)`. -/
theorem c76_negate : (∃ s', env2.checkIf (.un .negate (.ident "d" none)) = .ok s') ∧
    importIf regs2 (.un .negate (.ident "d" none)) (some 10) none = importIf regs2 (.un .logicalNot (.ident "d" none)) (some 10) none :=
  ⟨⟨_, rfl⟩, rfl⟩

/-! ### C79: type checking leaves the declarations alone -/

/-- **C79.** Checking a condition changes the type of no identifier, except that the widths of those may change that
occur with an index or in an operand of a binary operator; and whatever changes, the kind of the type does not.
Missing from C79: those widths (`c79_whole_register`, `c79_bit`, `c79_measure`). -/
theorem c79_types_partial {s s' : TC} {e : CExpr} (h : s.checkIf e = .ok s') (x : String) :
    (s'.env x).map Ty.kind = (s.env x).map Ty.kind ∧ (x ∉ e.touched → s'.env x = s.env x) := by
  unfold TC.checkIf at h
  cases hv : s.visit e with
  | ub => rw [hv] at h; cases h
  | throw => rw [hv] at h; cases h
  | ok p =>
    obtain ⟨s1, i⟩ := p
    rw [hv] at h
    have := (visit_keeps hv).1 x
    cases i with
    | error => cases h
    | var y =>
      simp only [Res.bind] at h
      split at h
      · cases h
      · split_ifs at h
        cases h
        exact this
    | new t =>
      simp only [Res.bind] at h
      split at h
      · cases h
      · split_ifs at h
        cases h
        exact this

/-- Hence for bare bits and their negations the environment is as before, and `c76_if_partial` applies to what follows. -/
theorem c79_declared {cregs : List Reg} {s s' : TC} (hd : Declared cregs s) {e : CExpr} (h : s.checkIf e = .ok s')
    (ht : ∀ r ∈ cregs, r.name ∉ e.touched) : Declared cregs s' := fun r hr => by
  rw [(c79_types_partial h r.name).2 (ht r hr)]
  exact hd r hr

example : ∃ s', env2.checkIf (.un .logicalNot (.ident "d" none)) = .ok s' ∧ (CExpr.un .logicalNot (.ident "d" none)).touched = [] :=
  ⟨_, rfl, rfl⟩

/-- **C79** fails: after `if (c[0])`, the condition `if (c)` on a register of three bits passes, and only tests the first. -/
theorem c79_whole_register : env2.checkIf (.ident "c" none) = .throw ∧
    (env2.checkIf (.ident "c" (some 0))).bind (fun s => (s.checkIf (.ident "c" none)).bind fun s' => .ok (s'.env "c")) = .ok (some (.des .bit 1)) ∧
    ∃ l, importIf regs2 (.ident "c" none) (some 10) none = .ok l ∧
      value regs2 (fun i => i = 1) (.ident "c" none) = some 2 ∧ runCC (fun o ψ => o + ψ) (fun i => i = 1) l 1 = some 1 :=
  ⟨rfl, rfl, _, rfl, by decide, by decide⟩

/-- **C79** fails: after `if (d == 1)`, the condition `if (d)` on a bit is rejected. -/
theorem c79_bit : (∃ s', env2.checkIf (.ident "d" none) = .ok s') ∧
    (env2.checkIf (.bin .equal (.ident "d" none) (.int false 1))).bind (fun s => s.checkIf (.ident "d" none)) = .throw :=
  ⟨⟨_, rfl⟩, rfl⟩

/-- **C79** fails: after `if (c[0])`, measuring three qubits into `c` is rejected. -/
theorem c79_measure : (∃ s', env2.checkMeasure "c" 3 = .ok s') ∧
    (env2.checkIf (.ident "c" (some 0))).bind (fun s => s.checkMeasure "c" 3) = .throw :=
  ⟨⟨_, rfl⟩, rfl⟩

/-- **C79.** An unknown identifier with an index, or negated, is not reported: a null pointer is dereferenced. -/
theorem c79_unknown (s : TC) (x : String) (h : s.env x = none) (i : ℕ) :
    s.checkIf (.ident x (some i)) = .ub ∧ s.checkIf (.un .logicalNot (.ident x none)) = .ub ∧ s.checkIf (.ident x none) = .throw := by
  simp [TC.checkIf, TC.visit, h, TC.setDes, TC.unary, TC.ty, Res.bind]

example : env2.env "e" = none := rfl

end MQT.QASM.Cond

/-! ### C77: gate calls -/

namespace MQT.QASM.GateCall

open MQT.IR

variable {E : Type}

/-- **C77.** If a call of a gate is imported, then the operation has the meaning of the call: for every instance of the
broadcast, the body of the gate with its parameters replaced by their values, with the modifiers applied from the last
to the first.
Missing from C77: `negctrl` on a gate that has controls of its own (`c77_negctrl`), gates whose body refers to a constant
that has the name of a parameter of another gate (`c77_scope`). -/
theorem c77_call_partial {X : Exprs E} {G : Gates E} {compat : Bool} (hG : GoodGates X G compat) (n : ℕ) (regs : List Reg)
    (ρ₀ : Vals) (c : Call E) (hc : Plain X G compat c) (u : UOp ℝ) (h : evalCall X G compat n regs ρ₀ c = .ok u) :
    ∃ f, CallMeans X G compat ρ₀ n regs ρ₀ c f ∧ u.denote = some f :=
  let ⟨f, h1, h2, _⟩ := evalCall_means hG ρ₀ n regs ρ₀ ρ₀ c u h hc (fun _ _ => rfl) fun _ _ => rfl
  ⟨f, h1, h2⟩

/-- **C77.** The meaning of a call is unique. -/
theorem c77_unique {X : Exprs E} {G : Gates E} {compat : Bool} {ρ₀ : Vals} {n : ℕ} {regs : List Reg} {ρ : Vals} {c : Call E}
    {f f' : State → State} (h : CallMeans X G compat ρ₀ n regs ρ c f) (h' : CallMeans X G compat ρ₀ n regs ρ c f') : f = f' :=
  h.unique h'

/-- **C77.** The standard gates satisfy the hypotheses: every one has a matrix. -/
theorem c77_standard_gates (X : Exprs E) (compat : Bool) : GoodGates X stdGates compat := by
  have key : ∀ name g, stdGates (E := E) name = some g → ∃ i ∈ stdTable, g = .std i.2.1 i.2.2.1 i.2.2.2.1 i.2.2.2.2 := by
    intro name g h
    unfold stdGates at h
    rw [Option.map_eq_some_iff] at h
    obtain ⟨i, hi, rfl⟩ := h
    refine ⟨(name, i), ?_, rfl⟩
    have : ∀ l : List (String × ℕ × ℕ × ℕ × OpType), l.lookup name = some i → (name, i) ∈ l := by
      intro l hl
      induction l with
      | nil => cases hl
      | cons p l ih =>
        obtain ⟨x, j⟩ := p
        rw [List.lookup_cons] at hl
        by_cases hx : name = x
        · subst hx; simp_all
        · rw [show (name == x) = false by simpa using hx] at hl
          exact List.mem_cons_of_mem _ (ih hl)
    exact this _ hi
  refine ⟨?_, ?_, ?_⟩
  · intro name nC nT nP type h
    obtain ⟨i, hi, e⟩ := key _ _ h
    cases e
    exact stdTable_valid i hi
  · intro name ps qs body h
    obtain ⟨i, hi, e⟩ := key _ _ h
    cases e
  · intro name ps qs body h
    obtain ⟨i, hi, e⟩ := key _ _ h
    cases e

/-- Expressions: a number or a name. -/
def exprs : Exprs (ℝ ⊕ String) where
  ev ρ e := e.elim some ρ
  ident := .inr
  ev_ident _ _ := rfl

/-- `inv @ s q;` for a register of two qubits. -/
example (ρ : Vals) : evalCall exprs stdGates false 1 [⟨4, 2, "q"⟩] ρ ⟨"s", [.inv], [], [.op (.reg "q")]⟩ =
    .ok (.compound [.std ⟨.sdg, [], ∅, [4]⟩, .std ⟨.sdg, [], ∅, [5]⟩]) := by
  have hl : lookup exprs stdGates false "s" 1 = some (.std 0 1 0 .s, 0) := rfl
  simp [evalCall, hl, Gate.nParams, Gate.nControls, Gate.nTargets, modLoop, Res.bind, collect, translateArg, translate, instances, instanceOf,
    pick, applyGate, invertIf, mapRes, ofOption, List.range_succ, List.range'_succ, UOp.invert, StdOp.invert]
example : Plain exprs stdGates false ⟨"s", [.inv, .ctrl false 2], [], [.hw 0, .hw 1, .hw 2]⟩ := by
  intro g k h
  have hl : lookup exprs stdGates false "s" 3 = some (.std 0 1 0 .s, 0) := rfl
  have h := hl.symm.trans h
  rw [Option.some.injEq, Prod.mk.injEq] at h
  obtain ⟨rfl, rfl⟩ := h
  exact .inl rfl

/-- `negctrl @ cx $0, $1, $2;` -/
def negcx : Call (ℝ ⊕ String) := ⟨"cx", [.ctrl false 1], [], [.hw 0, .hw 1, .hw 2]⟩

theorem lookup_cx : lookup exprs stdGates false "cx" 3 = some (.std 1 1 0 .x, 0) := rfl

/-- **C77** fails for `negctrl @ cx $0, $1, $2`: it is imported with the first control positive and the second negative. -/
theorem c77_negctrl (ρ : Vals) (n : ℕ) :
    evalCall exprs stdGates false (n + 1) [] ρ negcx = .ok (.std ⟨.x, [], {(0, true), (1, false)}, [2]⟩) ∧
    ∀ f, CallMeans exprs stdGates false ρ (n + 1) [] ρ negcx f → (UOp.std ⟨.x, [], {(0, true), (1, false)}, [2]⟩ : UOp ℝ).denote ≠ some f := by
  constructor
  · rw [evalCall, show lookup exprs stdGates false negcx.name negcx.operands.length = _ from lookup_cx]
    simp [negcx, Gate.nParams, Gate.nControls, Gate.nTargets, modLoop, Res.bind, collect, translateArg, instances, instanceOf, pick,
      applyGate, invertIf]
  · intro f hf
    have hf' : CallMeans exprs stdGates false ρ (n + 1) [] ρ negcx (ctl {(0, false)} (ctl ∅ (ctl {(1, true)} (app1 (mat1 0 1 1 0) 2)))) := by
      refine ⟨.std 1 1 0 .x, 0, [], 1, lookup_cx, rfl, rfl, ⟨?_, .inl rfl⟩, ?_⟩
      · simp [negcx, translateArg]
      · have h1 : ModsMean (GateMeans (CallMeans exprs stdGates false ρ n) ρ (.std 1 1 0 .x) []) [.ctrl false 1, .ctrl true 0] [0, 1, 2]
            (ctl {(0, false)} (ctl ∅ (ctl {(1, true)} (app1 (mat1 0 1 1 0) 2)))) :=
          .ctrl (n := 1) (pos := false) (qs := [0, 1, 2]) (by simp) (.ctrl (n := 0) (pos := true) (qs := [1, 2]) (by simp)
            (.nil ⟨rfl, rfl⟩))
        exact SeqMeans.cons (f := fun ψ => ψ) ⟨[0, 1, 2], by
          simp [negcx, Picks, translateArg], by simp, h1⟩ .nil
    rw [hf.unique hf']
    intro he
    rw [UOp.denote] at he
    have he : ctl {(0, true), (1, false)} (app1 (mat1 0 1 1 0) 2) = ctl {(0, false)} (ctl ∅ (ctl {(1, true)} (app1 (mat1 0 1 1 0) 2))) :=
      Option.some.inj he
    have := congrFun (congrFun he fun b => if b 2 then 1 else 0) fun i => decide (i = 0)
    simp [ctl, Sat, app1, mat1] at this

/-- `gate g(a) q { p(b) q; }` and `gate f(b) q { g(0) q; }`, with the standard gates. -/
def scopeGates : Gates (ℝ ⊕ String) := fun name =>
  if name = "g" then some (.compound ["a"] ["q"] [.call ⟨"p", [], [.inr "b"], [.op (.reg "q")]⟩])
  else if name = "f" then some (.compound ["b"] ["q"] [.call ⟨"g", [], [.inl 0], [.op (.reg "q")]⟩])
  else stdGates name

/-- The constant `b`. -/
noncomputable def constB : Vals := fun x => if x = "b" then some Real.pi else none

/-- **C77** fails for `const float b = pi; ... f(0) $0;`: the body of `g` sees the parameter `b` of `f`, not the constant.
The imported operation is `p(0)`, the call means `p(pi)`. -/
theorem c77_scope : evalCall exprs scopeGates false 3 [] constB ⟨"f", [], [.inl 0], [.hw 0]⟩ = .ok (.std ⟨.p, [0], ∅, [0]⟩) ∧
    (UOp.std ⟨.p, [0], ∅, [0]⟩ : UOp ℝ).denote ≠ (⟨.p, [Real.pi], ∅, [0]⟩ : StdOp ℝ).denote ∧
    ∃ f, CallMeans exprs scopeGates false constB 3 [] constB ⟨"f", [], [.inl 0], [.hw 0]⟩ f ∧
      (⟨.p, [Real.pi], ∅, [0]⟩ : StdOp ℝ).denote = some f := by
  have lf : lookup exprs scopeGates false "f" 1 = some (.compound ["b"] ["q"] [.call ⟨"g", [], [.inl 0], [.op (.reg "q")]⟩], 0) := rfl
  have lg : lookup exprs scopeGates false "g" 1 = some (.compound ["a"] ["q"] [.call ⟨"p", [], [.inr "b"], [.op (.reg "q")]⟩], 0) := rfl
  have lp : lookup exprs scopeGates false "p" 1 = some (.std 0 1 1 .p, 0) := rfl
  have hq : Singles (bodyRegs ["q"] [0]) [.op (.reg "q")] [0] := by simp [Singles, bodyRegs, translateArg, translate]
  have run : ∀ (ρ : Vals) (n : ℕ) (name : String) (ps : List String) (c : Call (ℝ ⊕ String)) (arg : ℝ ⊕ String) (v : ℝ) (regs : List Reg)
      (a : Arg) (u : StdOp ℝ), lookup exprs scopeGates false name 1 = some (.compound ps ["q"] [.call c], 0) → ps.length = 1 →
      c.operands = [.op (.reg "q")] → exprs.ev ρ arg = some v → Singles regs [a] [0] →
      evalCall exprs scopeGates false n (bodyRegs ["q"] [0]) (bindParams ps [v] ρ) c = .ok (.std u) →
      evalCall exprs scopeGates false (n + 1) regs ρ ⟨name, [], [arg], [a]⟩ = .ok (.std u) := by
    intro ρ n name ps c arg v regs a u hl hps hops he hs hc
    rw [evalCall_singles (k := 0) (vals := [v]) (qs := [0]) (g := .compound ps ["q"] [.call c]) (.inr ⟨rfl, rfl⟩) hl rfl (by simp [he]) hps.symm hs (by simp) rfl (by simp)]
    simp [applyGate, runBody, hops, indexedFormal, hc, Res.bind, ofOption, UOp.addControls, UOp.withControls, invertIf, unwrap]
  refine ⟨?_, ?_, ?_⟩
  · refine run _ _ _ _ _ _ 0 _ _ _ lf rfl rfl rfl (by simp [Singles, translateArg]) ?_
    refine run _ _ _ _ _ _ 0 _ _ _ lg rfl rfl rfl hq ?_
    rw [evalCall_singles (k := 0) (vals := [0]) (qs := [0]) (.inr ⟨rfl, rfl⟩) lp rfl (by simp [exprs, bindParams, List.lookup_cons]) rfl hq (by simp) rfl (by simp)]
    simp [applyGate, invertIf]
  · rw [UOp.denote]
    intro he
    have he : ctl ∅ (app1 (mat1 1 0 0 ⟨Real.cos 0, Real.sin 0⟩) 0) = ctl ∅ (app1 (mat1 1 0 0 ⟨Real.cos Real.pi, Real.sin Real.pi⟩) 0) :=
      Option.some.inj he
    have := congrFun (congrFun he fun _ => 1) fun _ => true
    simp [ctl, Sat, app1, mat1, Complex.ext_iff] at this
    norm_num at this
  · refine ⟨ctl ∅ (app1 (mat1 1 0 0 ⟨Real.cos Real.pi, Real.sin Real.pi⟩) 0), ?_, rfl⟩
    have means : ∀ (ρ : Vals) (n : ℕ) (name : String) (ps : List String) (c : Call (ℝ ⊕ String)) (arg : ℝ ⊕ String) (v : ℝ) (regs : List Reg)
        (a : Arg) (f : State → State), lookup exprs scopeGates false name 1 = some (.compound ps ["q"] [.call c], 0) → ps.length = 1 →
        exprs.ev ρ arg = some v → Singles regs [a] [0] →
        CallMeans exprs scopeGates false constB n (bodyRegs ["q"] [0]) (bindParams ps [v] constB) c f →
        CallMeans exprs scopeGates false constB (n + 1) regs ρ ⟨name, [], [arg], [a]⟩ f := by
      intro ρ n name ps c arg v regs a f hl hps he hs hf
      obtain ⟨h, -⟩ : translateArg regs a = .ok [0] ∧ True := by simpa [Singles] using hs
      refine ⟨_, 0, [v], 1, hl, by simp [he], hps.symm, ⟨by simp [h], .inl rfl⟩, ?_⟩
      have hm : ModsMean (GateMeans (CallMeans exprs scopeGates false constB n) constB (.compound ps ["q"] [.call c]) [v]) [.ctrl true 0] [0]
          (ctl ∅ fun ψ => f ψ) := .ctrl (n := 0) (qs := [0]) (by simp) (.nil ⟨rfl, .call (f := fun ψ => ψ) hf .nil⟩)
      rw [ctl_empty] at hm
      exact SeqMeans.cons (f := fun ψ => ψ) (g := f) ⟨[0], by simp [Picks, h], by simp, hm⟩ .nil
    refine means _ _ _ _ _ _ 0 _ _ _ lf rfl rfl (by simp [Singles, translateArg]) ?_
    refine means _ _ _ _ _ _ 0 _ _ _ lg rfl rfl hq ?_
    have h : translateArg (bodyRegs ["q"] [0]) (.op (.reg "q")) = .ok [0] := by simp [bodyRegs, translateArg, translate]
    refine ⟨_, 0, [Real.pi], 1, lp, by simp [exprs, bindParams, List.lookup_cons, constB], rfl, ⟨by simp [h], .inl rfl⟩, ?_⟩
    have hm : ModsMean (GateMeans (CallMeans exprs scopeGates false constB 0) constB (.std 0 1 1 .p) [Real.pi]) [.ctrl true 0] [0]
        (ctl ∅ (ctl ∅ (app1 (mat1 1 0 0 ⟨Real.cos Real.pi, Real.sin Real.pi⟩) 0))) :=
      .ctrl (n := 0) (qs := [0]) (by simp) (.nil ⟨rfl, rfl⟩)
    rw [ctl_empty] at hm
    exact SeqMeans.cons (f := fun ψ => ψ) ⟨[0], by simp [Picks, h], by simp, hm⟩ .nil

/-- **C77.** The number of controls is added up modulo `2^64`, after which operands are read out of range. -/
theorem c77_wraps (X : Exprs E) (compat : Bool) (ρ : Vals) (n : ℕ) :
    evalCall X stdGates compat (n + 1) [] ρ ⟨"x", [.ctrl true 1, .ctrl true (2 ^ 64 - 1)], [], [.hw 0, .hw 1]⟩ = .ub := by
  have hl : lookup X stdGates compat "x" 2 = some (.std 0 1 0 .x, 0) := rfl
  simp [evalCall, hl, Gate.nParams, Gate.nControls, modLoop, Res.bind]

/-! ### C78: multi-controlled gates -/

/-- **C78.** `mcx`, `mcx_gray`, `mcx_vchain` (with at least two controls), `mcx_recursive`: X on the qubit after the controls,
and nothing on the ancillas (`k - 2` for `k ≥ 2` controls of `mcx_vchain`, one for five or more controls of `mcx_recursive`).
Missing from C78: mcx_vchain with one control, which is rejected (`c78_vchain_one`). -/
theorem c78_mcx_partial {X : Exprs E} {G : Gates E} {compat : Bool} {name : String}
    (hname : name ∈ ["mcx", "mcx_gray", "mcx_vchain", "mcx_recursive"]) (hG : G name = none) (hx : G "x" = some (.std 0 1 0 .x))
    {regs : List Reg} {ρ : Vals} {operands : List Arg} {cs anc : List ℕ} {t : ℕ}
    (hs : Singles regs operands (cs ++ t :: anc)) (hnd : (cs ++ t :: anc).Nodup) (hanc : anc.length = mcAncillas name cs.length)
    (hvc : name = "mcx_vchain" → 2 ≤ cs.length) (hlt : cs.length < 2 ^ 64) (n : ℕ) :
    evalCall X G compat (n + 2) regs ρ ⟨name, [], [], operands⟩ =
      .ok (.std ⟨.x, [], (cs.map fun q => (q, true)).toFinset, [t]⟩) := by
  have hp : name ≠ "mcphase" := by rintro rfl; simp at hname
  refine evalCall_mc (by simp only [List.mem_cons] at hname ⊢; tauto) hG (by simpa [hp] using hx) rfl (by simp [hp]) hs hnd hanc hvc hlt n

/-- **C78.** `mcphase`. -/
theorem c78_mcphase {X : Exprs E} {G : Gates E} {compat : Bool} (hG : G "mcphase" = none) (hx : G "p" = some (.std 0 1 1 .p))
    {regs : List Reg} {ρ : Vals} {e : E} {θ : ℝ} (he : X.ev ρ e = some θ) {operands : List Arg} {cs : List ℕ} {t : ℕ}
    (hs : Singles regs operands (cs ++ [t])) (hnd : (cs ++ [t]).Nodup) (hlt : cs.length < 2 ^ 64) (n : ℕ) :
    evalCall X G compat (n + 2) regs ρ ⟨"mcphase", [], [e], operands⟩ =
      .ok (.std ⟨.p, [θ], (cs.map fun q => (q, true)).toFinset, [t]⟩) :=
  evalCall_mc (by simp) hG (by simpa using hx) (by simp [he]) (by simp) hs hnd (by simp [mcAncillas]) (by simp) hlt n

example : Singles [⟨3, 4, "q"⟩] [.op (.elem "q" 0), .hw 9, .op (.elem "q" 3)] [3, 9, 6] := by
  simp [Singles, translateArg, translate]
example : evalCall exprs stdGates true 2 [] constB ⟨"mcx_vchain", [], [], [.hw 5, .hw 1, .hw 2, .hw 7, .hw 4]⟩ =
    .ok (.std ⟨.x, [], {(5, true), (1, true), (2, true)}, [7]⟩) := by
  have := c78_mcx_partial (X := exprs) (G := stdGates) (compat := true) (name := "mcx_vchain") (by simp) rfl rfl (regs := []) (ρ := constB)
    (operands := [.hw 5, .hw 1, .hw 2, .hw 7, .hw 4]) (cs := [5, 1, 2]) (t := 7) (anc := [4]) (by simp [Singles, translateArg]) (by simp)
    rfl (by simp) (by simp) 0
  simpa using this

/-- **C78** fails for `mcx_vchain` with one control and no ancilla, which is rejected. -/
theorem c78_vchain_one (X : Exprs E) (compat : Bool) (ρ : Vals) (n : ℕ) :
    evalCall X stdGates compat (n + 2) [] ρ ⟨"mcx_vchain", [], [], [.hw 0, .hw 1]⟩ = .throw := by
  have hl : lookup X stdGates compat "mcx_vchain" 2 = some (mcGate X "mcx_vchain" 2, 0) := rfl
  rw [evalCall_singles (k := 0) (vals := []) (qs := [0, 1]) (.inr ⟨rfl, rfl⟩) hl rfl rfl rfl (by simp [Singles, translateArg]) (by simp) rfl
    (by simp)]
  have hx : lookup X stdGates compat "x" 2 = some (.std 0 1 0 .x, 0) := rfl
  simp [mcGate, mcTargets, applyGate, runBody, indexedFormal, evalCall, List.range_succ, hx, Gate.nParams, Gate.nControls, Gate.nTargets,
    modLoop, Res.bind]

/-- **C78.** The names of standard gates agree with the implicit controls of the compatibility mode: a name that is another
one with letters `c` in front is that gate with so many more controls. -/
theorem c78_names : ∀ i ∈ stdTable, ∀ j ∈ stdTable, ∀ k ≤ 2, 0 < k → i.1 = String.ofList (List.replicate k 'c') ++ j.1 →
    i.2 = (j.2.1 + k, j.2.2) := by
  decide +kernel

/-- The qubits an operand stands for. -/
inductive Addresses (regs : List Reg) : Arg → List ℕ → Prop
  | hardware (n : ℕ) : Addresses regs (.hw n) [n]
  | register (r : Reg) : r ∈ regs → Addresses regs (.op (.reg r.name)) (List.ofFn fun i : Fin r.size => r.start + i)
  | element (r : Reg) (i : ℕ) : r ∈ regs → i < r.size → Addresses regs (.op (.elem r.name i)) [r.start + i]

/-- The gate a name stands for, and its number of implicit controls: a declared gate, else a multi-controlled gate, else
(in compatibility mode) a declared gate after as many `c` as possible. -/
inductive Names (X : Exprs E) (G : Gates E) (compat : Bool) (n : ℕ) : String → Gate E → ℕ → Prop
  | declared (name g) : G name = some g → Names X G compat n name g 0
  | multi (name) : G name = none → name ∈ ["mcx", "mcx_gray", "mcx_vchain", "mcx_recursive", "mcphase"] →
      Names X G compat n name (mcGate X name n) 0
  | prefixed (k : ℕ) (rest : List Char) (g) : compat = true → G (String.ofList (List.replicate k 'c' ++ rest)) = none →
      String.ofList (List.replicate k 'c' ++ rest) ∉ ["mcx", "mcx_gray", "mcx_vchain", "mcx_recursive", "mcphase"] →
      rest.head? ≠ some 'c' → G (String.ofList rest) = some g → Names X G compat n (String.ofList (List.replicate k 'c' ++ rest)) g k

theorem range'_eq_ofFn (s n : ℕ) : List.range' s n = List.ofFn fun i : Fin n => s + i := by
  refine List.ext_getElem (by simp) fun i h1 h2 => ?_
  simp

theorem find?_name {regs : List Reg} (hd : (regs.map (·.name)).Nodup) {r : Reg} (hr : r ∈ regs) :
    regs.find? (·.name = r.name) = some r := by
  induction regs with
  | nil => cases hr
  | cons a l ih =>
    rw [List.map_cons, List.nodup_cons] at hd
    rcases List.mem_cons.1 hr with rfl | hr
    · simp
    · have : a.name ≠ r.name := fun h => hd.1 (h ▸ List.mem_map_of_mem hr)
      rw [List.find?_cons_of_neg (by simpa using this)]
      exact ih hd.2 hr

/-- **C77.** An operand is translated to the qubits it addresses, and to nothing else. -/
theorem c77_operands {regs : List Reg} (hd : (regs.map (·.name)).Nodup) (a : Arg) (t : List ℕ) :
    translateArg regs a = .ok t ↔ Addresses regs a t := by
  constructor
  · intro h
    cases a with
    | hw n => cases h; exact .hardware n
    | op o =>
      cases o with
      | reg name =>
        simp only [translateArg, translate] at h
        cases hf : regs.find? (·.name = name) with
        | none => rw [hf] at h; cases h
        | some r =>
          rw [hf] at h
          cases h
          have h1 := List.mem_of_find?_eq_some hf
          have h2 : r.name = name := by simpa using List.find?_some hf
          rw [← h2, range'_eq_ofFn]
          exact .register r h1
      | elem name i =>
        simp only [translateArg, translate] at h
        cases hf : regs.find? (·.name = name) with
        | none => rw [hf] at h; cases h
        | some r =>
          rw [hf] at h
          simp only at h
          split_ifs at h with hi
          cases h
          have h1 := List.mem_of_find?_eq_some hf
          have h2 : r.name = name := by simpa using List.find?_some hf
          rw [← h2]
          exact .element r i h1 (by omega)
  · intro h
    cases h with
    | hardware n => rfl
    | register r hr => simp only [translateArg, translate, find?_name hd hr, range'_eq_ofFn]
    | element r i hr hi => simp only [translateArg, translate, find?_name hd hr, if_neg (Nat.not_le.2 hi)]

theorem takeWhile_c (k : ℕ) (rest : List Char) (h : rest.head? ≠ some 'c') :
    (List.replicate k 'c' ++ rest).takeWhile (· = 'c') = List.replicate k 'c' ∧
      (List.replicate k 'c' ++ rest).dropWhile (· = 'c') = rest := by
  induction k with
  | zero => cases rest with
    | nil => simp
    | cons a l => have : a ≠ 'c' := by simpa using h
                  simp [this]
  | succ k ih => simp [List.replicate_succ, ih.1, ih.2]

/-- **C77.** A gate name is resolved to the gate it names. -/
theorem c77_lookup (X : Exprs E) (G : Gates E) (compat : Bool) (name : String) (n : ℕ) (g : Gate E) (k : ℕ) :
    lookup X G compat name n = some (g, k) ↔ Names X G compat n name g k := by
  constructor
  · intro h
    unfold lookup at h
    cases hG : G name with
    | some g' => rw [hG] at h; cases h; exact .declared _ _ hG
    | none =>
      rw [hG] at h
      simp only at h
      split_ifs at h with h1 h2
      · cases h; exact .multi _ hG h1
      · unfold parseCompat at h
        simp only at h
        split_ifs at h with h3
        · rw [hG] at h; cases h
        · obtain ⟨g', hg', he⟩ := Option.map_eq_some_iff.1 h
          cases he
          have hrep : ∀ l : List Char, l.takeWhile (· = 'c') = List.replicate (l.takeWhile (· = 'c')).length 'c' := fun l =>
            List.eq_replicate_of_mem fun b hb => by
              have := List.all_eq_true.1 (List.all_takeWhile (p := fun c : Char => decide (c = 'c')) (l := l)) b hb
              simpa using this
          have hn : name = String.ofList (List.replicate (name.toList.takeWhile (· = 'c')).length 'c' ++ name.toList.dropWhile (· = 'c')) := by
            rw [← hrep, List.takeWhile_append_dropWhile, String.ofList_toList]
          have hh : (name.toList.dropWhile (· = 'c')).head? ≠ some 'c' := by
            intro hc
            have := List.head?_dropWhile_not (fun c : Char => decide (c = 'c')) name.toList
            rw [hc] at this
            simp at this
          have := Names.prefixed (X := X) (n := n) (name.toList.takeWhile (· = 'c')).length _ _ h2 (hn ▸ hG) (hn ▸ h1) hh hg'
          rwa [← hn] at this
  · intro h
    cases h with
    | declared _ _ hG => simp [lookup, hG]
    | multi _ hG hm => simp only [lookup, hG, if_pos hm]
    | prefixed k rest g hc hG hm hh hg =>
      obtain ⟨h1, h2⟩ := takeWhile_c k rest hh
      simp only [lookup, hG, if_neg hm, hc, if_true, parseCompat, String.toList_ofList, h1, h2, hg, Option.isNone_some,
        List.length_replicate, Bool.false_eq_true, if_false, Option.map_some]

/-- `ccswap` in compatibility mode: `swap` with two implicit controls. -/
example (X : Exprs E) : Names X stdGates true 4 "ccswap" (.std 0 2 0 .swap) 2 :=
  (c77_lookup _ _ _ _ _ _ _).1 (by rfl)

/-- A gate `cfoo` declared by the user is not found from `ccfoo`: every `c` is stripped. -/
theorem c77_prefix_greedy (X : Exprs E) (g : Gate E) :
    lookup X (fun x => if x = "cfoo" then some g else none) true "ccfoo" 3 = none := by
  simp [lookup, parseCompat]

example : Addresses [⟨0, 2, "a"⟩, ⟨2, 3, "b"⟩] (.op (.reg "b")) [2, 3, 4] := (c77_operands (by decide) _ _).1 rfl

end MQT.QASM.GateCall
