/-
C105: an exported circuit is imported again.
-/
import Verif.QASM.ImportProof

set_option autoImplicit false

namespace MQT.QASM.Import

open MQT.IR
open MQT.QASM.GateCall (Arg Mod Call Gate Gates Exprs Vals Printer parseCompat stdGates importOut importOuts mapRes dumpOp2 dumpOp3 evalCall Exportable
  sortCtrls)
open MQT.QASM.Program (E Statement Files parseText)
open MQT.QASM.Print (Line toStatement toRef natural number IsLine IsReg bind_ok toDecl Prints named builtinFiles qelibGates)
open MQT.QASM.Scanner (PMap parsePermutation value isNum printed renumbered Valid)
open MQT.QASM.TypeCheck (Kind)
open Function (update)

/-! ### The gates included -/

/-- The state of the type check with the builtins only. -/
structure Quiet (t : TypeCheck.St) : Prop where
  env : t.env = TypeCheck.start.env
  err : t.err = false
  heap : 0 < t.heap.length

def builtinNames : List String := ["pi", "π", "tau", "τ", "euler", "ℇ"]

theorem Quiet.valid {t : TypeCheck.St} (h : Quiet t) : t.Valid := by
  intro x p hx
  rw [h.env] at hx
  have := TypeCheck.start_valid x p hx
  have e : TypeCheck.start.heap.length = 1 := rfl
  have := h.heap
  omega

theorem Quiet.ctx {t : TypeCheck.St} (h : Quiet t) {x : String} (hx : x ∉ builtinNames) : t.ctx x = none := by
  have : TypeCheck.start.env.lookup x = none := by
    simp only [builtinNames, List.mem_cons, List.not_mem_nil, or_false, not_or] at hx
    simp [TypeCheck.start, List.lookup_cons, beq_eq_false_iff_ne.2 hx.1, beq_eq_false_iff_ne.2 hx.2.1, beq_eq_false_iff_ne.2 hx.2.2.1,
      beq_eq_false_iff_ne.2 hx.2.2.2.1, beq_eq_false_iff_ne.2 hx.2.2.2.2.1, beq_eq_false_iff_ne.2 hx.2.2.2.2.2]
  simp [TypeCheck.St.ctx, h.env, this]

def quiet (t : TypeCheck.St) : Bool := decide (t.env = TypeCheck.start.env) && !t.err && decide (0 < t.heap.length)

theorem quiet_spec {t : TypeCheck.St} (h : quiet t = true) : Quiet t := by
  simp only [quiet, Bool.and_eq_true, decide_eq_true_eq, Bool.not_eq_true'] at h
  exact ⟨h.1.1, h.1.2, h.2⟩

def gateCheck : Statement → TypeCheck.Stmt
  | .gate _ ps qs body _ => .gate ps qs (body.map (checkedQuantum toEx))
  | _ => .other

def gateCmd : Statement → Cmd
  | .gate name ps qs body isOpaque => .gate name ps qs (body.filterMap ofBody) isOpaque
  | _ => .version false

def gatePair (s : Statement) : TypeCheck.Stmt × Cmd := (gateCheck s, gateCmd s)

theorem std_commands (X : Exprs E) (ρ : Vals) : commands X ρ stdLib = some (stdLib.map gatePair) := rfl

theorem qelib_commands (X : Exprs E) (ρ : Vals) : commands X ρ qelibGates = some (qelibGates.map gatePair) := rfl

/-- The type check after a program. -/
def after (l : List TypeCheck.Stmt) (t : TypeCheck.St) : TypeCheck.St := match TypeCheck.program l t with
  | .ok t => t
  | _ => t

def passes (l : List TypeCheck.Stmt) (t : TypeCheck.St) : Bool := match TypeCheck.program l t with
  | .ok t => quiet t
  | _ => false

theorem passes_spec {l : List TypeCheck.Stmt} {t : TypeCheck.St} (h : passes l t = true) :
    TypeCheck.program l t = .ok (after l t) ∧ Quiet (after l t) := by
  unfold passes at h
  unfold after
  split at h
  · next t' e =>
    rw [e]
    exact ⟨rfl, quiet_spec h⟩
  · cases h

theorem std_passes : passes (stdLib.map gateCheck) TypeCheck.start = true := by decide +kernel

theorem qelib_passes : passes (qelibGates.map gateCheck) (after (stdLib.map gateCheck) TypeCheck.start) = true := by decide +kernel

/-- The visits without the type check. -/
noncomputable def steps (X : Exprs E) (ρ : Vals) (d : ℕ) : List Cmd → St → Res St
  | [], s => .ok s
  | c :: l, s => (step X ρ d s c).bind fun s' => steps X ρ d l s'

theorem run_split {X : Exprs E} {ρ : Vals} {d : ℕ} (l : List (TypeCheck.Stmt × Cmd)) : ∀ {t t' : TypeCheck.St} {s s' : St},
    TypeCheck.program (l.map Prod.fst) t = .ok t' → steps X ρ d (l.map Prod.snd) s = .ok s' → run X ρ d l (t, s) = .ok (t', s') := by
  induction l with
  | nil => intro t t' s s' h1 h2; cases h1; cases h2; rfl
  | cons c l ih =>
    intro t t' s s' h1 h2
    obtain ⟨t1, a1, h1⟩ := bind_ok h1
    obtain ⟨s1, a2, h2⟩ := bind_ok h2
    simp only [run, a1, a2, Res.bind]
    exact ih h1 h2

theorem std_none : ∀ x ∈ ["cu", "rccx", "rc3x"], GateCall.stdTable.lookup x = none := by decide +kernel

theorem stdGates_none {x : String} (h : x ∈ ["cu", "rccx", "rc3x"]) : (stdGates : Gates E) x = none := by
  rw [stdGates, std_none x h]
  rfl

/-- Defining a gate that is not there and does not start with a `c`. -/
theorem define_new {name : String} {ps qs : List String} {body : List (GateCall.Stmt E)} {s : St} (h : s.gates name = none)
    (hc : s.compat = true → name.toList.head? ≠ some 'c') (hp : ps.Nodup) (hq : qs.Nodup) :
    defineGate name ps qs body false s = .ok { s with gates := update s.gates name (some (.compound ps qs body)) } := by
  have hx : (if s.compat then (parseCompat s.gates name).1 else name) = name := by
    split_ifs with h1
    · have hd : name.toList.dropWhile (· = 'c') = name.toList := by
        have := hc h1
        cases hl : name.toList with
        | nil => rfl
        | cons a l =>
          rw [hl] at this
          have : a ≠ 'c' := by simpa using this
          simp [this]
      simp [parseCompat, hd, h]
    · rfl
  simp only [defineGate, Bool.false_eq_true, if_false, hx, h, if_pos (And.intro hp hq)]

/-- The gates with one more definition. -/
def withGate (G : Gates E) : Cmd → Gates E
  | .gate name ps qs body _ => update G name (some (.compound ps qs body))
  | _ => G

theorem step_gate {X : Exprs E} {ρ : Vals} {d : ℕ} {name : String} {ps qs : List String} {body : List (GateCall.Stmt E)} {s : St}
    (h : s.gates name = none) (hc : name.toList.head? ≠ some 'c' ∨ s.compat = false) (hp : ps.Nodup) (hq : qs.Nodup) :
    step X ρ d s (.gate name ps qs body false) = .ok { s with gates := withGate s.gates (.gate name ps qs body false) } := by
  rw [step]
  exact define_new h (fun h1 => hc.resolve_right (by simp [h1])) hp hq

theorem std_steps (X : Exprs E) (ρ : Vals) (d : ℕ) : ∃ G, GateCall.Included G ∧ G "rccx" = none ∧ G "rc3x" = none ∧
    steps X ρ d (stdLib.map gateCmd) start = .ok { start with gates := G } := by
  have e : steps X ρ d (stdLib.map gateCmd) start =
      .ok { start with gates := (stdLib.map gateCmd).foldl withGate start.gates } := by
    simp only [stdLib, List.map_cons, List.map_nil, steps, gateCmd, List.foldl_cons, List.foldl_nil]
    rw [step_gate (s := start) (stdGates_none (by simp)) (.inr rfl) (by decide) (by decide)]
    rfl
  refine ⟨_, ?_, ?_, ?_, e⟩
  · intro name hn
    simp only [List.mem_cons, List.not_mem_nil, or_false, not_or] at hn
    simp [stdLib, gateCmd, withGate, start, hn.1]
  · simp [stdLib, gateCmd, withGate, start, stdGates_none]
  · simp [stdLib, gateCmd, withGate, start, stdGates_none]

theorem qelib_steps (X : Exprs E) (ρ : Vals) (d : ℕ) {s : St} (hG : GateCall.Included s.gates) (h1 : s.gates "rccx" = none)
    (h2 : s.gates "rc3x" = none) : ∃ G, GateCall.Included G ∧ steps X ρ d (qelibGates.map gateCmd) s = .ok { s with gates := G } := by
  have e : steps X ρ d (qelibGates.map gateCmd) s = .ok { s with gates := (qelibGates.map gateCmd).foldl withGate s.gates } := by
    simp only [qelibGates, List.map_cons, List.map_nil, steps, gateCmd, List.foldl_cons, List.foldl_nil]
    rw [step_gate h1 (.inl (by decide +kernel)) (by decide) (by decide)]
    simp only [Res.bind]
    rw [step_gate (by simp [withGate, h2]) (.inl (by decide +kernel)) (by decide) (by decide)]
  refine ⟨_, ?_, e⟩
  intro name hn
  have := hG name hn
  simp only [List.mem_cons, List.not_mem_nil, or_false, not_or] at hn
  simp [qelibGates, gateCmd, withGate, hn.2.1, hn.2.2, this]

/-! ### Operations -/

theorem soft_gateType {X : Exprs E} {P : Printer X} {regs : List Reg} {k : ℕ} {ms : List Mod} {type : OpType} {ps : List ℝ} {cqs ts : List ℕ}
    {l : List (GateCall.Out E)} (h : GateCall.dumpGateType P regs k ms type ps cqs ts = .ok l) : ∀ o ∈ l, Soft (.out o) := by
  have call : ∀ {k : ℕ} {ms : List Mod} {name : String} {args : List E} {qs : List ℕ} {o : GateCall.Out E},
      GateCall.dumpCall regs k ms name args qs = .ok o → Soft (.out o) := fun h => by
    obtain ⟨l, _, h⟩ := bind_ok h
    cases h
    exact ⟨l, rfl⟩
  unfold GateCall.dumpGateType at h
  split at h
  · split_ifs at h
    obtain ⟨l', _, h⟩ := bind_ok h
    cases h
    intro o ho
    cases o with
    | call c =>
      obtain ⟨s, _, hs⟩ := List.mem_filterMap.1 ho
      split at hs <;> cases hs
    | barrier qs => trivial
  · split at h
    · obtain ⟨a, h1, h⟩ := bind_ok h
      obtain ⟨b, h2, h⟩ := bind_ok h
      cases h
      simp only [List.mem_cons, List.not_mem_nil, or_false, forall_eq_or_imp, forall_eq]
      exact ⟨call h1, call h2⟩
    · cases h
  · split at h
    · obtain ⟨a, h1, h⟩ := bind_ok h
      obtain ⟨b, h2, h⟩ := bind_ok h
      cases h
      simp only [List.mem_cons, List.not_mem_nil, or_false, forall_eq_or_imp, forall_eq]
      exact ⟨call h1, call h2⟩
    · cases h
  · obtain ⟨g, _, h⟩ := bind_ok h
    obtain ⟨a, h1, h⟩ := bind_ok h
    cases h
    simp only [List.mem_cons, List.not_mem_nil, or_false, forall_eq]
    exact call h1

theorem soft_x {regs : List Reg} : ∀ (c : List Ctrl) {l : List (GateCall.Out E)}, GateCall.dumpX regs c = .ok l → ∀ o ∈ l, Soft (.out o) := by
  intro c
  induction c with
  | nil => intro l h; cases h; simp
  | cons a c ih =>
    intro l h
    obtain ⟨q, pos⟩ := a
    rw [GateCall.dumpX] at h
    split_ifs at h
    · exact ih h
    · obtain ⟨o, h1, h⟩ := bind_ok h
      obtain ⟨r, h2, h⟩ := bind_ok h
      cases h
      obtain ⟨l', _, h1⟩ := bind_ok h1
      cases h1
      intro o ho
      rcases List.mem_cons.1 ho with rfl | ho
      · exact ⟨l', rfl⟩
      · exact ih h2 o ho

theorem soft_op {X : Exprs E} {P : Printer X} {qasm3 : Bool} {regs : List Reg} {o : StdOp ℝ} {l : List (GateCall.Out E)}
    (h : (if qasm3 then dumpOp3 P regs o else dumpOp2 P regs o) = .ok l) : ∀ x ∈ l, Soft (.out x) := by
  split_ifs at h
  · exact soft_gateType h
  · unfold dumpOp2 at h
    simp only at h
    split_ifs at h
    · exact soft_gateType h
    · obtain ⟨a, h1, h⟩ := bind_ok h
      obtain ⟨m, h2, h⟩ := bind_ok h
      cases h
      intro x hx
      simp only [List.mem_append] at hx
      rcases hx with hx | hx | hx
      · exact soft_x _ h1 x hx
      · exact soft_gateType h2 x hx
      · exact soft_x _ h1 x hx

/-- The operation with the parameters as they are printed. -/
noncomputable def rounded {X : Exprs E} (P : Printer X) (o : StdOp ℝ) : StdOp ℝ := { o with params := o.params.map P.rnd }

/-- An operation that can be exported. -/
def Good {X : Exprs E} (P : Printer X) (qasm3 : Bool) (qregs cregs : List Reg) : COp → Prop
  | .gate o => Exportable qregs o ∧ o.type ∈ named ∧ o.type ∉ [.peres, .peresdg] ∧ (o.type = .gphase ∨ o.targets ≠ []) ∧ o.controls.card < 2 ^ 63 ∧
      (rounded P o).denote.isSome = true ∧ (o.type = .barrier → Faithful qregs o.targets)
  | .other (.reset ts) => ts ≠ [] ∧ Covered qregs ts ∧ Faithful qregs ts
  | .other (.measure ts bs) => ts ≠ [] ∧ ts.length = bs.length ∧ Covered qregs ts ∧ Covered cregs bs ∧ Faithful qregs ts ∧ Faithful cregs bs ∧
      (qasm3 = true → ts.length = 1 ∨ (∃ r ∈ qregs, ts = List.range' r.start r.size) ∧ ∃ r ∈ cregs, bs = List.range' r.start r.size)
  | .other (.barrier _) => False

/-- The operations imported for one exported: a barrier is the same barrier, gates do the same to every state, and
measurements and resets are the same ones in the same order. -/
def Means {X : Exprs E} (P : Printer X) : COp → List Item → Prop
  | .gate o, items =>
    if o.type = .barrier then items = [.gate (.std ⟨.barrier, [], ∅, o.targets⟩)]
    else ∃ us : List (UOp ℝ), items = us.map .gate ∧ (UOp.compound us).denote = (rounded P o).denote
  | .other o, items => ∃ os : List NOp, items = os.map .other ∧ os.flatMap NOp.events = o.events

theorem items_outs {X : Exprs E} {G : Gates E} {compat : Bool} {d : ℕ} {qregs cregs : List Reg} {ρ : Vals} : ∀ {l : List (GateCall.Out E)} {us : List (UOp ℝ)},
    importOuts X G compat d qregs ρ l = .ok us → mapRes (itemOf X G compat d qregs cregs ρ) (l.map .out) = .ok (us.map .gate) := by
  intro l
  induction l with
  | nil => intro us h; cases h; rfl
  | cons a l ih =>
    intro us h
    obtain ⟨u, t, h1, h2, rfl⟩ := mapRes_cons h
    simp only [List.map_cons, mapRes, itemOf, h1, Res.bind, ih h2]

theorem items_stmts {X : Exprs E} {G : Gates E} {compat : Bool} {d : ℕ} {qregs cregs : List Reg} {ρ : Vals} : ∀ {l : List Stmt} {os : List NOp},
    importAll qregs cregs l = .ok os → (∀ qs, Event.barrier qs ∉ os.flatMap NOp.events) →
    mapRes (itemOf X G compat d qregs cregs ρ) (l.map .stmt) = .ok (os.map .other) := by
  intro l
  induction l with
  | nil => intro os h _; cases h; rfl
  | cons a l ih =>
    intro os h hb
    obtain ⟨o, h1, h⟩ := bind_ok h
    obtain ⟨t, h2, h⟩ := bind_ok h
    cases h
    have := ih h2 fun qs hq => hb qs (by simp only [List.flatMap_cons, List.mem_append]; exact .inr hq)
    cases a with
    | barrier qs =>
      obtain ⟨ts, _, h1⟩ := bind_ok h1
      cases h1
      exact absurd (by simp [NOp.events]) (hb ts)
    | measure t q => simp only [List.map_cons, mapRes, itemOf, h1, Res.bind, this]
    | reset q => simp only [List.map_cons, mapRes, itemOf, h1, Res.bind, this]

theorem barrier_op {X : Exprs E} (P : Printer X) (qasm3 : Bool) {G : Gates E} {compat : Bool} {d : ℕ} {regs : List Reg} (hr : WF regs) {ρ : Vals} {o : StdOp ℝ}
    (ho : Exportable regs o) (hb : o.type = .barrier) (hf : Faithful regs o.targets) :
    ∃ l, (if qasm3 then dumpOp3 P regs o else dumpOp2 P regs o) = .ok l ∧
      importOuts X G compat d regs ρ l = .ok [.std ⟨.barrier, [], ∅, o.targets⟩] := by
  obtain ⟨l, h1, h2⟩ := c63_barrier_partial (cregs := []) hr true ho.targets hf
  have hl : ∃ qs, l = [.barrier qs] ∧ translateAll regs qs = .ok o.targets := by
    cases l with
    | nil => cases h2
    | cons s l =>
      obtain ⟨a, g1, h2⟩ := bind_ok h2
      obtain ⟨r, g2, h2⟩ := bind_ok h2
      simp only [Res.ok.injEq, List.cons.injEq] at h2
      obtain ⟨rfl, rfl⟩ := h2
      have : l = [] := by
        cases l with
        | nil => rfl
        | cons s l =>
          obtain ⟨_, _, g2⟩ := bind_ok g2
          obtain ⟨_, _, g2⟩ := bind_ok g2
          cases g2
      subst this
      cases s with
      | barrier qs =>
        obtain ⟨ts, g, e⟩ := bind_ok g1
        cases e
        exact ⟨qs, rfl, g⟩
      | measure t q =>
        obtain ⟨_, _, g1⟩ := bind_ok g1
        obtain ⟨_, _, g1⟩ := bind_ok g1
        split_ifs at g1
        cases g1
      | reset q =>
        obtain ⟨_, _, g1⟩ := bind_ok g1
        cases g1
  obtain ⟨qs, rfl, ht⟩ := hl
  have main : ∀ k ms, GateCall.dumpGateType P regs k ms o.type o.params ((sortCtrls o.controls).map Prod.fst) o.targets = .ok [.barrier qs] := by
    intro k ms
    rw [ho.barrier hb, hb, GateCall.sortCtrls_empty]
    simp [GateCall.dumpGateType, h1, Res.bind]
  refine ⟨[.barrier qs], ?_, ?_⟩
  · split_ifs
    · exact main _ _
    · unfold dumpOp2
      simp only [hb, reduceCtorEq, or_self, if_false]
      rw [← hb, main, ho.barrier hb, GateCall.sortCtrls_empty]
      rfl
  · simp only [importOuts, mapRes, importOut, ht, Res.bind]

/-- What is exported for an operation can be read, and is imported as the operation. -/
theorem op_items {X : Exprs E} {P : Printer X} (hP : Prints P) {qasm3 : Bool} {G : Gates E} (hG : GateCall.Included G) {d : ℕ} {qregs cregs : List Reg}
    (hq : WF qregs) (hc : WF cregs) (rq : ∀ r ∈ qregs, IsReg r) (rc : ∀ r ∈ cregs, IsReg r) {ρ : Vals} (hρ : ρ "pi" = some Real.pi) {o : COp}
    (ho : Good P qasm3 qregs cregs o) : ∃ ls items, exportOp P qasm3 qregs cregs o = .ok ls ∧ (∀ l ∈ ls, IsLine l ∧ Soft l) ∧
      mapRes (itemOf X G (!qasm3) (d + 1) qregs cregs ρ) ls = .ok items ∧ Means P o items := by
  cases o with
  | gate o =>
    obtain ⟨h1, h2, h3, h4, h5, h6, h7⟩ := ho
    have key : ∃ l us, (if qasm3 then dumpOp3 P qregs o else dumpOp2 P qregs o) = .ok l ∧ importOuts X G (!qasm3) (d + 1) qregs ρ l = .ok us ∧
        Means P (.gate o) (us.map .gate) := by
      by_cases hb : o.type = .barrier
      · obtain ⟨l, a, b⟩ := barrier_op P qasm3 (G := G) (compat := !qasm3) (d := d + 1) hq (ρ := ρ) h1 hb (h7 hb)
        exact ⟨l, _, a, b, by simp [Means, hb]⟩
      · obtain ⟨f, hf⟩ := Option.isSome_iff_exists.1 h6
        cases qasm3
        · obtain ⟨l, us, a, b, c⟩ := GateCall.c96_qasm2_partial P hG hq hρ d h1 h3 hf
          exact ⟨l, us, a, b, by rw [Means, if_neg hb]; exact ⟨us, rfl, c.trans hf.symm⟩⟩
        · obtain ⟨l, us, a, b, c⟩ := GateCall.c96_qasm3_partial P hG hq hρ d h1 h3 hf
          exact ⟨l, us, a, b, by rw [Means, if_neg hb]; exact ⟨us, rfl, c.trans hf.symm⟩⟩
    obtain ⟨l, us, a, b, c⟩ := key
    refine ⟨l.map .out, us.map .gate, by simp only [exportOp, a, Res.bind], fun x hx => ?_, items_outs b, c⟩
    obtain ⟨y, hy, rfl⟩ := List.mem_map.1 hx
    refine ⟨?_, soft_op a y hy⟩
    cases qasm3
    · exact Print.c103_gates2 hP rq h2 h4 a y hy
    · exact Print.c103_gates3 hP rq h2 h4 h5 a y hy
  | other o =>
    have key : ∃ l os, dump qregs cregs qasm3 o = .ok l ∧ importAll qregs cregs l = .ok os ∧ os.flatMap NOp.events = o.events ∧
        ∀ qs, Event.barrier qs ∉ o.events := by
      cases o with
      | measure ts bs =>
        obtain ⟨h1, h2, h3, h4, h5, h6, h7⟩ := ho
        obtain ⟨l, os, a, b, c⟩ := c63_measure_partial hq hc qasm3 h1 h2 h3 h4 h5 h6 h7
        exact ⟨l, os, a, b, c, by simp [NOp.events]⟩
      | reset ts =>
        obtain ⟨h1, h2, h3⟩ := ho
        obtain ⟨l, os, a, b, c⟩ := c63_reset_partial (cregs := cregs) hq qasm3 h1 h2 h3
        exact ⟨l, os, a, b, c, by simp [NOp.events]⟩
      | barrier ts => exact absurd ho (by simp [Good])
    obtain ⟨l, os, a, b, c, e⟩ := key
    refine ⟨l.map .stmt, os.map .other, by simp only [exportOp, a, Res.bind], fun x hx => ?_, items_stmts b (by rw [c]; exact e), os, rfl, c⟩
    obtain ⟨y, hy, rfl⟩ := List.mem_map.1 hx
    exact ⟨Print.c103_measures rq rc a y hy, trivial⟩

theorem ops_items {X : Exprs E} {P : Printer X} (hP : Prints P) {qasm3 : Bool} {G : Gates E} (hG : GateCall.Included G) {d : ℕ} {qregs cregs : List Reg}
    (hq : WF qregs) (hc : WF cregs) (rq : ∀ r ∈ qregs, IsReg r) (rc : ∀ r ∈ cregs, IsReg r) {ρ : Vals} (hρ : ρ "pi" = some Real.pi) {ops : List COp}
    (ho : ∀ o ∈ ops, Good P qasm3 qregs cregs o) : ∃ ls chunks, mapRes (exportOp P qasm3 qregs cregs) ops = .ok ls ∧
      (∀ l ∈ ls.flatten, IsLine l ∧ Soft l) ∧
      mapRes (itemOf X G (!qasm3) (d + 1) qregs cregs ρ) ls.flatten = .ok chunks.flatten ∧ List.Forall₂ (Means P) ops chunks := by
  induction ops with
  | nil => exact ⟨[], [], rfl, by simp, rfl, .nil⟩
  | cons o ops ih =>
    obtain ⟨l, it, a1, a2, a3, a4⟩ := op_items (X := X) hP hG (d := d) hq hc rq rc hρ (ho o (by simp))
    obtain ⟨ls, ch, b1, b2, b3, b4⟩ := ih fun o ho' => ho o (by simp [ho'])
    refine ⟨l :: ls, it :: ch, by simp only [mapRes, a1, b1, Res.bind], fun x hx => ?_, by simpa using mapRes_append a3 b3, .cons a4 b4⟩
    rw [List.flatten_cons, List.mem_append] at hx
    exact hx.elim (a2 x) (b2 x)

/-! ### The circuit -/

/-- A circuit that can be exported and imported. -/
structure Fine {X : Exprs E} (P : Printer X) (qasm3 : Bool) (C : Circuit COp) : Prop where
  qstacked : Stacked 0 C.qregs
  cstacked : Stacked 0 C.cregs
  qnames : ∀ r ∈ C.qregs, IsReg r ∧ 0 < r.size
  cnames : ∀ r ∈ C.cregs, IsReg r ∧ 0 < r.size
  distinct : ((C.qregs ++ C.cregs).map Reg.name).Nodup
  builtins : ∀ r ∈ C.qregs ++ C.cregs, r.name ∉ builtinNames
  nonempty : C.qregs ≠ []
  init : Valid C.init C.init
  outp : Valid C.init C.outp
  initNe : C.init ≠ []
  outpNe : C.outp ≠ []
  length : C.init.length ≤ 2 ^ 32
  ops : ∀ o ∈ C.ops, Good P qasm3 C.qregs C.cregs o

/-- The statements of a file included. -/
def library (qasm3 : Bool) : List Statement := if qasm3 then [] else qelibGates

def headPairs (qasm3 : Bool) (init outp : PMap) : List (TypeCheck.Stmt × Cmd) :=
  [(.other, .layout (Scanner.line 'i' (printed init init))), (.other, .outputs (Scanner.line 'o' (printed init outp))), (.other, .version !qasm3)]

theorem process_other {t : TypeCheck.St} (h : t.err = false) : TypeCheck.process .other t = .ok t := by
  simp [TypeCheck.process, TypeCheck.stmt, Res.bind, h]

theorem run_std (X : Exprs E) (ρ : Vals) (d : ℕ) : ∃ G, GateCall.Included G ∧ G "rccx" = none ∧ G "rc3x" = none ∧
    run X ρ d (stdLib.map gatePair) (TypeCheck.start, start) =
      .ok (after (stdLib.map gateCheck) TypeCheck.start, { start with gates := G }) := by
  obtain ⟨G, h1, h2, h3, h4⟩ := std_steps X ρ d
  refine ⟨G, h1, h2, h3, run_split _ ?_ ?_⟩
  · rw [List.map_map]
    exact (passes_spec std_passes).1
  · rw [List.map_map]
    exact h4

theorem run_head {X : Exprs E} {ρ : Vals} {d : ℕ} (qasm3 : Bool) {init outp : PMap} (hi : Valid init init) (ho : Valid init outp)
    (hl : init.length ≤ 2 ^ 32) {t : TypeCheck.St} (ht : t.err = false) (G : Gates E) :
    run X ρ d (headPairs qasm3 init outp) (t, { start with gates := G }) =
      .ok (t, { start with gates := G, compat := !qasm3, init := renumbered init init, outp := renumbered init outp }) := by
  have h1 := Scanner.parse_line (c := 'i') (by decide) hi.sorted hi.sorted hi.keys hi.values hl
  have h2 := Scanner.parse_line (c := 'o') (by decide) hi.sorted ho.sorted ho.keys ho.values hl
  simp only [headPairs, run, process_other ht, step, h1, h2, Res.bind, start, ne_eq, not_true_eq_false, if_false, Bool.false_or]

theorem run_library {X : Exprs E} {ρ : Vals} {d : ℕ} (qasm3 : Bool) {s : St} (hG : GateCall.Included s.gates) (h1 : s.gates "rccx" = none)
    (h2 : s.gates "rc3x" = none) : ∃ t G, Quiet t ∧ GateCall.Included G ∧
      run X ρ d ((library qasm3).map gatePair) (after (stdLib.map gateCheck) TypeCheck.start, s) = .ok (t, { s with gates := G }) := by
  cases qasm3
  · obtain ⟨G, g1, g2⟩ := qelib_steps X ρ d hG h1 h2
    refine ⟨_, G, (passes_spec qelib_passes).2, g1, run_split _ ?_ ?_⟩
    · rw [List.map_map]
      exact (passes_spec qelib_passes).1
    · rw [List.map_map]
      exact g2
  · exact ⟨_, s.gates, (passes_spec std_passes).2, hG, rfl⟩

theorem head_commands {X : Exprs E} {ρ : Vals} (qasm3 : Bool) {init outp : PMap} (hi : Valid init init) (ho : Valid init outp)
    (hin : init ≠ []) (hon : outp ≠ []) :
    commands X ρ (Print.layouts init outp ++ [.version (if qasm3 then "3.0" else "2.0").toList false]) = some (headPairs qasm3 init outp) := by
  have v : ∀ b : Bool, ofVersion (if b then "3.0" else "2.0").toList false = some !b := by decide +kernel
  have e : Print.layouts init outp ++ [.version (if qasm3 then "3.0" else "2.0").toList false] =
      [.layout (Scanner.line 'i' (printed init init)), .outputs (Scanner.line 'o' (printed init outp)),
        .version (if qasm3 then "3.0" else "2.0").toList false] := by
    rw [Print.layouts, if_neg (Scanner.printed_ne hi.values hin), if_neg (Scanner.printed_ne ho.values hon)]
    rfl
  rw [e]
  simp only [commands, List.mapM_cons, List.mapM_nil, checked, cmd, v, Option.map_some, Option.bind_some]
  rfl

theorem library_commands (X : Exprs E) (ρ : Vals) (qasm3 : Bool) : commands X ρ (library qasm3) = some ((library qasm3).map gatePair) := by
  cases qasm3
  · exact qelib_commands X ρ
  · rfl

theorem included_library (qasm3 : Bool) : Print.Included builtinFiles qasm3 (library qasm3) := by
  cases qasm3
  · exact Print.c103_included.2
  · exact Print.c103_included.1

theorem lookup_declared (l : List Reg) (k : Kind) (d : List (String × Kind)) {r : Reg} (hr : r ∈ l) :
    ((l.map fun r => (r.name, k)).reverse ++ d).lookup r.name = some k := by
  have : ∀ m : List Reg, r ∈ m → ((m.map fun r => (r.name, k)) ++ d).lookup r.name = some k := by
    intro m
    induction m with
    | nil => intro h; cases h
    | cons a m ih =>
      intro h
      rw [List.map_cons, List.cons_append, List.lookup_cons]
      by_cases e : r.name = a.name
      · simp [e]
      · simp only [beq_eq_false_iff_ne.2 e]
        exact ih ((List.mem_cons.1 h).resolve_left fun h => e (h ▸ rfl))
  rw [← List.map_reverse]
  exact this l.reverse (by simpa using hr)

/-- **C105.** The text of a circuit is imported as a circuit with the same registers and operations; its physical qubits and its
logical qubits are numbered consecutively.
Missing from C105: registers that share a name (`c105_same_name`), are named as a builtin or a keyword (`c105_builtin_name`,
`c103_keyword`), circuits without a qubit or without an output (`c98_none`), and the operations excluded from C63 and C96. -/
theorem c105_import_partial {X : Exprs E} {P : Printer X} (hP : Prints P) (qasm3 : Bool) {C : Circuit COp} (hC : Fine P qasm3 C) (d : ℕ) :
    ∃ text chunks N, exportText P qasm3 C = .ok text ∧ List.Forall₂ (Means P) C.ops chunks ∧ ∀ n ≥ N,
      importText X builtinFiles n (d + 1) text =
        some (.ok ⟨renumbered C.init C.init, renumbered C.init C.outp, C.qregs, C.cregs, chunks.flatten⟩) := by
  have nd := hC.distinct
  rw [List.map_append, List.nodup_append] at nd
  obtain ⟨ndq, ndc, ndx⟩ := nd
  have wq := stacked_wf hC.qstacked ndq
  have wc := stacked_wf hC.cstacked ndc
  have rq := fun r hr => (hC.qnames r hr).1
  have rc := fun r hr => (hC.cnames r hr).1
  obtain ⟨G0, i0, x1, x2, run0⟩ := run_std X builtins (d + 1)
  have run1 := run_head (X := X) (ρ := builtins) (d := d + 1) qasm3 hC.init hC.outp hC.length
    (t := after (stdLib.map gateCheck) TypeCheck.start) (passes_spec std_passes).2.err G0
  obtain ⟨t2, G, q2, iG, run2⟩ := run_library (X := X) (ρ := builtins) (d := d + 1) qasm3
    (s := { start with gates := G0, compat := !qasm3, init := renumbered C.init C.init, outp := renumbered C.init C.outp }) i0 x1 x2
  set s2 : St := { start with gates := G, compat := !qasm3, init := renumbered C.init C.init, outp := renumbered C.init C.outp } with hs2
  have free : ∀ r ∈ C.qregs ++ C.cregs, t2.ctx r.name = none := fun r hr => q2.ctx (hC.builtins r hr)
  obtain ⟨t3, run3, v3, e3, c3, k3⟩ := run_decls (X := X) (ρ := builtins) (d := d + 1) true C.qregs (t := t2) (s := s2) q2.valid q2.err
    (by simpa [hs2, St.regs, start, total] using hC.qstacked) (fun r hr => ⟨(hC.qnames r hr).2, (rq r hr).2⟩) ndq
    (fun r hr => ⟨by simp [hs2, start], free r (by simp [hr]), by simp [hs2, St.regs, start]⟩)
  obtain ⟨t4, run4, v4, e4, c4, k4⟩ := run_decls (X := X) (ρ := builtins) (d := d + 1) false C.cregs (t := t3) (s := s2.declared true C.qregs) v3 e3
    (by simpa [hs2, St.regs, St.declared, St.withRegs, start, total] using hC.cstacked) (fun r hr => ⟨(hC.cnames r hr).2, (rc r hr).2⟩) ndc
    (fun r hr => by
      have hn : r.name ∉ C.qregs.map Reg.name := fun h => ndx _ h _ (List.mem_map_of_mem hr) rfl
      refine ⟨?_, (k3 _ hn).trans (free r (by simp [hr])), by simp [hs2, St.regs, St.declared, St.withRegs, start]⟩
      simpa [hs2, St.declared, St.withRegs, start] using hn)
  obtain ⟨ls, chunks, ex, lines, its, means⟩ := ops_items (X := X) hP (qasm3 := qasm3) iG (d := d) wq wc rq rc (ρ := builtins) (by simp [builtins]) hC.ops
  set s4 := (s2.declared true C.qregs).declared false C.cregs with hs4
  have f1 : s4.qregs = C.qregs := by simp [hs4, hs2, St.declared, St.withRegs, St.regs, start]
  have f2 : s4.cregs = C.cregs := by simp [hs4, hs2, St.declared, St.withRegs, St.regs, start]
  have f3 : s4.gates = G := rfl
  have f4 : s4.compat = !qasm3 := rfl
  have f5 : s4.ops = [] := rfl
  have f6 : s4.init = renumbered C.init C.init := rfl
  have f7 : s4.outp = renumbered C.init C.outp := rfl
  obtain ⟨t5, run5⟩ := run_lines (X := X) (ρ := builtins) (d := d + 1) ls.flatten (t := t4) (s := s4) (items := chunks.flatten) v4 e4
    ⟨fun r hr => by
      rw [f1] at hr
      have hn : r.name ∉ C.cregs.map Reg.name := fun h => ndx _ (List.mem_map_of_mem hr) _ h rfl
      rw [k4 _ hn]
      exact c3 r hr, fun r hr => c4 r (f2 ▸ hr)⟩
    (fun r hr => lookup_declared C.cregs .bit _ (f2 ▸ hr)) (by rw [f1, f2, f3, f4]; exact its)
  obtain ⟨N, hN⟩ := Print.c103_text_partial (included_library qasm3) C.init C.outp rq rc (fun l hl => (lines l hl).1) (.inr hC.nonempty)
    (by intro h; subst h; simp [library, qelibGates])
  refine ⟨_, chunks, N, by rw [exportText, ex]; rfl, means, fun n hn => ?_⟩
  have cmds := commands_append (std_commands X builtins) (commands_append (head_commands (X := X) (ρ := builtins) qasm3 hC.init hC.outp hC.initNe hC.outpNe)
    (commands_append (library_commands X builtins qasm3) (commands_append (commands_map C.qregs fun r _ => decl_pair X builtins true r)
      (commands_append (commands_map C.cregs fun r _ => decl_pair X builtins false r)
        (commands_map ls.flatten (h := linePair X builtins) fun l hl => ⟨checked_line X builtins l, cmd_line (lines l hl).1 (lines l hl).2⟩)))))
  have hst : stdLib ++ Print.statements C.init C.outp C.qregs C.cregs ls.flatten qasm3 (library qasm3) =
      stdLib ++ ((Print.layouts C.init C.outp ++ [.version (if qasm3 then "3.0" else "2.0").toList false]) ++ (library qasm3 ++
        (C.qregs.map (toDecl true) ++ (C.cregs.map (toDecl false) ++ ls.flatten.map toStatement)))) := by
    simp [Print.statements]
  rw [importText, hN n hn, Option.bind_some, importStatements, hst, cmds, Option.map_some]
  simp only [run_append, run0, run1, run2, run3, run4, run5, Res.bind]
  have n1 : renumbered C.init C.init ≠ [] := by simpa [renumbered] using hC.initNe
  have n2 : renumbered C.init C.outp ≠ [] := by simpa [renumbered] using hC.outpNe
  simp only [finish, f1, f2, f5, f6, f7, if_pos n1, if_pos n2, List.nil_append]

/-! ### Disagreements -/

theorem steps_append (X : Exprs E) (ρ : Vals) (d : ℕ) (a b : List Cmd) (s : St) :
    steps X ρ d (a ++ b) s = (steps X ρ d a s).bind (steps X ρ d b) := by
  induction a generalizing s with
  | nil => rfl
  | cons c a ih =>
    simp only [List.cons_append, steps]
    cases step X ρ d s c <;> simp only [Res.bind]
    exact ih _

/-- The type check rejects the program. -/
theorem run_rejected {X : Exprs E} {ρ : Vals} {d : ℕ} (l : List (TypeCheck.Stmt × Cmd)) : ∀ {t : TypeCheck.St} {s s' : St},
    TypeCheck.program (l.map Prod.fst) t = .throw → steps X ρ d (l.map Prod.snd) s = .ok s' → run X ρ d l (t, s) = .throw := by
  induction l with
  | nil => intro t s s' h1 _; cases h1
  | cons c l ih =>
    intro t s s' h1 h2
    obtain ⟨s1, a2, h2⟩ := bind_ok h2
    simp only [List.map_cons, TypeCheck.program] at h1
    simp only [run]
    cases hp : TypeCheck.process c.1 t with
    | ub => rw [hp] at h1; cases h1
    | throw => rfl
    | ok t1 =>
      rw [hp] at h1
      simp only [Res.bind, a2]
      exact ih h1 h2

/-- The importer rejects the program. -/
theorem run_thrown {X : Exprs E} {ρ : Vals} {d : ℕ} (l : List (TypeCheck.Stmt × Cmd)) : ∀ {t t' : TypeCheck.St} {s : St},
    TypeCheck.program (l.map Prod.fst) t = .ok t' → steps X ρ d (l.map Prod.snd) s = .throw → run X ρ d l (t, s) = .throw := by
  induction l with
  | nil => intro t t' s _ h2; cases h2
  | cons c l ih =>
    intro t t' s h1 h2
    obtain ⟨t1, a1, h1⟩ := bind_ok h1
    simp only [List.map_cons, steps] at h2
    simp only [run, a1, Res.bind]
    cases hp : step X ρ d s c.2 with
    | ub => rw [hp] at h2; cases h2
    | throw => rfl
    | ok s1 =>
      rw [hp] at h2
      exact ih h1 h2

/-- A circuit with one quantum and one classical register, and maybe a measurement. -/
def pair (q c : String) (n : ℕ) (ops : List COp) : Circuit COp := ⟨identity n, identity n, [⟨0, n, q⟩], [⟨0, n, c⟩], ops⟩

theorem rejected_spec {l : List TypeCheck.Stmt} (h : TypeCheck.rejected l = true) : TypeCheck.program l TypeCheck.start = .throw := by
  unfold TypeCheck.rejected at h
  split at h
  · assumption
  · cases h

theorem accepted_spec {l : List TypeCheck.Stmt} (h : TypeCheck.accepted l = true) : ∃ t, TypeCheck.program l TypeCheck.start = .ok t := by
  unfold TypeCheck.accepted at h
  split at h
  · exact ⟨_, by assumption⟩
  · cases h

theorem valid_identity (n : ℕ) : Valid (identity n) (identity n) :=
  ⟨by simp [Scanner.Sorted, identity, List.pairwise_map, List.pairwise_lt_range], by simp [identity, Function.comp_def, List.nodup_range], fun _ h => h⟩

/-- What is done with the exported text of such a circuit. -/
theorem import_pair {X : Exprs E} {P : Printer X} {q c : String} {n : ℕ} {ops : List COp} {ls : List (List Line)} (hn : n ≠ 0) (hn' : n ≤ 2 ^ 32)
    (hq : Print.IsName q) (hc : Print.IsName c) (hx : mapRes (exportOp P true [⟨0, n, q⟩] [⟨0, n, c⟩]) ops = .ok ls)
    (hl : ∀ l ∈ ls.flatten, IsLine l ∧ Soft l) (d : ℕ) : ∃ text N, exportText P true (pair q c n ops) = .ok text ∧ ∀ k ≥ N,
      importText X builtinFiles k d text = some ((run X builtins d (stdLib.map gatePair ++ (headPairs true (identity n) (identity n) ++
        (declPair true ⟨0, n, q⟩ :: declPair false ⟨0, n, c⟩ :: ls.flatten.map (linePair X builtins)))) (TypeCheck.start, start)).bind
          fun s => .ok (finish s.2)) := by
  have ni : identity n ≠ [] := by simpa [identity] using hn
  have size : n < 2 ^ 63 := by norm_num at *; omega
  obtain ⟨N, hN⟩ := Print.c103_text_partial (included_library true) (identity n) (identity n) (qregs := [⟨0, n, q⟩]) (cregs := [⟨0, n, c⟩])
    (by simpa using ⟨hq, size⟩) (by simpa using ⟨hc, size⟩) (fun l h => (hl l h).1) (.inr (by simp)) (by simp)
  refine ⟨_, N, by rw [exportText]; simp only [pair]; rw [hx]; rfl, fun k hk => ?_⟩
  have cmds := commands_append (std_commands X builtins) (commands_append (head_commands (X := X) (ρ := builtins) true (valid_identity n) (valid_identity n) ni ni)
    (commands_append (commands_map [⟨0, n, q⟩] fun r _ => decl_pair X builtins true r)
      (commands_append (commands_map [⟨0, n, c⟩] fun r _ => decl_pair X builtins false r)
        (commands_map ls.flatten (h := linePair X builtins) fun l h => ⟨checked_line X builtins l, cmd_line (hl l h).1 (hl l h).2⟩))))
  have hst : stdLib ++ Print.statements (identity n) (identity n) [⟨0, n, q⟩] [⟨0, n, c⟩] ls.flatten true (library true) =
      stdLib ++ ((Print.layouts (identity n) (identity n) ++ [.version (if true then "3.0" else "2.0").toList false]) ++
        ([⟨0, n, q⟩].map (toDecl true) ++ ([⟨0, n, c⟩].map (toDecl false) ++ ls.flatten.map toStatement))) := by
    simp [Print.statements, library]
  rw [importText, hN k hk, Option.bind_some, importStatements, hst, cmds, Option.map_some]
  rfl

/-- The importer after the head of such a text. -/
theorem steps_head (X : Exprs E) (d n : ℕ) (hn : n ≤ 2 ^ 32) : ∃ s : St, s.qregs = [] ∧ s.cregs = [] ∧ s.decls = [] ∧
    ∀ l : List Cmd, steps X builtins d ((stdLib.map gatePair).map Prod.snd ++ ((headPairs true (identity n) (identity n)).map Prod.snd ++ l)) start =
      steps X builtins d l s := by
  obtain ⟨G, -, -, -, h⟩ := std_steps X builtins d
  have hv := valid_identity n
  have h1 := Scanner.parse_line (c := 'i') (by decide) hv.sorted hv.sorted hv.keys hv.values (by simpa [identity] using hn)
  have h2 := Scanner.parse_line (c := 'o') (by decide) hv.sorted hv.sorted hv.keys hv.values (by simpa [identity] using hn)
  refine ⟨{ start with gates := G, init := renumbered (identity n) (identity n), outp := renumbered (identity n) (identity n) }, rfl, rfl, rfl, fun l => ?_⟩
  have e : (stdLib.map gatePair).map Prod.snd = stdLib.map gateCmd := by rw [List.map_map]; rfl
  rw [steps_append, e, h]
  simp only [Res.bind, headPairs, List.map_cons, List.map_nil, List.cons_append, List.nil_append, steps, step, h1, h2, start, ne_eq,
    not_true_eq_false, if_false, Bool.not_true, Bool.or_false]

/-- **C105.** A gate is defined once: the definition of a gate that is not known is stored under its name, and every further
definition of it is rejected. -/
theorem c105_gate (X : Exprs E) (ρ : Vals) (d : ℕ) {s : St} (hc : s.compat = false) {name : String} (hn : s.gates name = none)
    {ps qs : List String} (hp : ps.Nodup) (hq : qs.Nodup) (body : List (GateCall.Stmt E)) :
    ∃ s', step X ρ d s (.gate name ps qs body false) = .ok s' ∧ s'.gates name = some (.compound ps qs body) ∧
      (∀ x, x ≠ name → s'.gates x = s.gates x) ∧
      ∀ ps' qs' body', step X ρ d s' (.gate name ps' qs' body' false) = .throw := by
  refine ⟨{ s with gates := update s.gates name (some (.compound ps qs body)) }, ?_, ?_, fun x hx => ?_, fun ps' qs' body' => ?_⟩
  · simp [step, defineGate, hc, hn, hp, hq]
  · simp
  · simp [Function.update_of_ne hx]
  · simp [step, defineGate, hc]

/-- **C105.** Definitions of standard gates are ignored. -/
theorem c105_standard (X : Exprs E) (ρ : Vals) (d : ℕ) {s : St} (hc : s.compat = false) {name : String} {a b c : ℕ} {ty : OpType}
    (hn : s.gates name = some (.std a b c ty)) (ps qs : List String) (body : List (GateCall.Stmt E)) :
    step X ρ d s (.gate name ps qs body false) = .ok s := by
  simp [step, defineGate, hc, hn]

example (X : Exprs E) (ρ : Vals) : ∃ s', step X ρ 1 start (.gate "bell" [] ["a", "b"] [] false) = .ok s' ∧
    step X ρ 1 s' (.gate "bell" [] ["a"] [] false) = .throw ∧ step X ρ 1 start (.gate "cx" [] ["a", "b"] [] false) = .ok start := by
  obtain ⟨s', h1, -, -, h2⟩ := c105_gate X ρ 1 (s := start) rfl (name := "bell") (by decide +kernel) (ps := []) (qs := ["a", "b"]) (by simp) (by simp) []
  exact ⟨s', h1, h2 _ _ _, c105_standard X ρ 1 rfl (a := 1) (b := 1) (c := 0) (ty := .x) (by simp [start, stdGates, GateCall.stdTable, List.lookup]) _ _ _⟩

/-- **C105 fails.** A quantum and a classical register may have the same name; what is exported is rejected. -/
theorem c105_same_name {X : Exprs E} (P : Printer X) (d : ℕ) : ∃ text N, exportText P true (pair "q" "q" 1 []) = .ok text ∧
    ∀ k ≥ N, importText X builtinFiles k d text = some .throw := by
  obtain ⟨text, N, h1, h2⟩ := import_pair (X := X) (P := P) (q := "q") (c := "q") (n := 1) (ops := []) (ls := []) (by decide) (by decide)
    Print.Demo.isName_q Print.Demo.isName_q rfl (by simp) d
  refine ⟨text, N, h1, fun k hk => ?_⟩
  rw [h2 k hk]
  obtain ⟨s, s1, s2, s3, hs⟩ := steps_head X d 1 (by decide)
  have acc : TypeCheck.accepted (stdLib.map gateCheck ++ [.other, .other, .other, .decl (.sized .qubit (some (.int false 1))) "q" none,
    .decl (.sized .bit (some (.int false 1))) "q" none]) = true := by decide +kernel
  obtain ⟨t, ht⟩ := accepted_spec acc
  rw [run_thrown _ (t' := t)]
  · rfl
  · exact ht
  · rw [List.map_append, List.map_append, hs]
    simp [steps, declPair, kindOf, step, declare, addReg, s1, s2, s3, Res.bind]

/-- **C105 fails.** A register may be named as one of the constants; what is exported is rejected. -/
theorem c105_builtin_name {X : Exprs E} (P : Printer X) (d : ℕ) : ∃ text N,
    exportText P true (pair "pi" "c" 2 [.other (.measure [0, 1] [0, 1])]) = .ok text ∧
    ∀ k ≥ N, importText X builtinFiles k d text = some .throw := by
  have hpi : Print.IsName "pi" := ⟨'p', ['i'], by decide +kernel, by decide, by decide, by decide +kernel⟩
  obtain ⟨text, N, h1, h2⟩ := import_pair (X := X) (P := P) (q := "pi") (c := "c") (n := 2) (ops := [.other (.measure [0, 1] [0, 1])])
    (ls := [[.stmt (.measure (.reg "c") (.reg "pi"))]]) (by decide) (by decide) hpi Print.Demo.isName_c
    (by
      have : dump [⟨0, 2, "pi"⟩] [⟨0, 2, "c"⟩] true (.measure [0, 1] [0, 1]) = .ok [.measure (.reg "c") (.reg "pi")] := by decide +kernel
      simp [mapRes, exportOp, this, Res.bind])
    (by
      intro l hl
      simp only [List.flatten_cons, List.flatten_nil, List.append_nil, List.mem_singleton] at hl
      subst hl
      exact ⟨⟨Print.Demo.isName_c, hpi⟩, trivial⟩) d
  refine ⟨text, N, h1, fun k hk => ?_⟩
  rw [h2 k hk]
  obtain ⟨s, s1, s2, s3, hs⟩ := steps_head X d 2 (by decide)
  have rej : TypeCheck.rejected (stdLib.map gateCheck ++ [.other, .other, .other, .decl (.sized .qubit (some (.int false 2))) "pi" none,
    .decl (.sized .bit (some (.int false 2))) "c" none, .assign "c" [] (.measure (.ref "pi" []))]) = true := by decide +kernel
  have imp : importStmt [⟨0, 2, "pi"⟩] [⟨0, 2, "c"⟩] (.measure (.reg "c") (.reg "pi")) = .ok (.measure [0, 1] [0, 1]) := by decide +kernel
  rw [run_rejected _ (s' := ⟨s.compat, s.init, s.outp, [("c", .bit), ("pi", .qubit)], s.gates, [⟨0, 2, "pi"⟩], [⟨0, 2, "c"⟩],
    s.ops ++ [.other (.measure [0, 1] [0, 1])]⟩)]
  · rfl
  · exact rejected_spec rej
  · rw [List.map_append, List.map_append, hs]
    simp [steps, declPair, kindOf, step, declare, addReg, total, linePair, lineCmd, measure, base, s1, s2, s3, imp, Res.bind]

/-! ### Examples -/

namespace Demo

open MQT.QASM.GateCall (qregs2 ncs ncs_exportable qregs2_covered)

set_option maxRecDepth 20000 in
/-- The gate declared in front of every program. -/
example : parseText builtinFiles 60 stdText.toList = some stdLib := by rfl

/-- The value of the expressions printed. -/
noncomputable def ev (ρ : Vals) : E → Option ℝ
  | .atom (.name s) => ρ s
  | .atom (.lit (.num (.int v _))) => some v
  | .un .neg e => (ev ρ e).map fun x => -x
  | .bin .div a b => (ev ρ a).bind fun x => (ev ρ b).map fun y => x / y
  | _ => none

noncomputable def exprs : Exprs E := ⟨ev, fun s => .atom (.name s), fun _ _ => rfl⟩

def clip (z : ℤ) : ℤ := if z.natAbs < 2 ^ 63 then z else 0

/-- Printing that rounds to an integer. -/
noncomputable def printer : Printer exprs where
  rnd v := clip ⌊v⌋
  num v := number (.int (clip ⌊v⌋) (decide (clip ⌊v⌋ < 0)))
  piOver := Print.piOver
  ev_num _ _ := rfl
  ev_piOver ρ h neg k := by
    cases neg <;> simp [exprs, Print.piOver, natural, number, ev, h, neg_div]

theorem prints : Prints printer := by
  refine ⟨fun v => .inl ⟨.int (clip ⌊v⌋) (decide (clip ⌊v⌋ < 0)), ⟨?_, ?_⟩, rfl⟩, rfl⟩
  · unfold clip
    split_ifs with h
    · exact h
    · norm_num
  · by_cases h : clip ⌊v⌋ < 0
    · simp [h, h.le]
    · simp only [h, decide_false, Bool.false_eq_true, if_false]
      exact not_lt.1 h

/-- A controlled gate, a barrier, a reset of a register and a measurement of one. -/
def ops : List COp :=
  [.gate ncs, .gate ⟨.barrier, [], ∅, [0, 1, 2]⟩, .other (.reset [2, 3, 4]), .other (.measure [0, 1] [0, 1])]

def circuit : Circuit COp :=
  ⟨[(0, 1), (1, 0), (2, 2), (3, 4), (4, 3)], [(0, 0), (2, 1)], qregs2, [⟨0, 2, "c"⟩], ops⟩

theorem fine (qasm3 : Bool) : Fine printer qasm3 circuit where
  qstacked := by simp [circuit, qregs2, Stacked]
  cstacked := by simp [circuit, Stacked]
  qnames := by
    have ha : Print.IsName "a" := ⟨'a', [], by decide +kernel, by decide, by decide, by decide +kernel⟩
    have hb : Print.IsName "b" := ⟨'b', [], by decide +kernel, by decide, by decide, by decide +kernel⟩
    simp [circuit, qregs2, IsReg, ha, hb]
  cnames := by simp [circuit, IsReg, Print.Demo.isName_c]
  distinct := by simp [circuit, qregs2]
  builtins := by simp [circuit, qregs2, builtinNames]
  nonempty := by simp [circuit, qregs2]
  init := ⟨by simp [circuit, Scanner.Sorted], by simp [circuit], fun _ h => h⟩
  outp := ⟨by simp [circuit, Scanner.Sorted], by simp [circuit], by simp [circuit]⟩
  initNe := by simp [circuit]
  outpNe := by simp [circuit]
  length := by norm_num [circuit]
  ops := by
    simp only [circuit, ops, List.mem_cons, List.not_mem_nil, or_false, forall_eq_or_imp, forall_eq]
    refine ⟨⟨ncs_exportable, by simp [ncs, named], by simp [ncs], by simp [ncs], ?_, rfl, by simp [ncs]⟩,
      ⟨⟨fun h => absurd rfl h, by simp [GateCall.Distinct], qregs2_covered (by simp), by simp [GateCall.sortCtrls_empty, Covered], fun _ => rfl, by simp⟩,
        by simp [named], by simp, by simp, by simp, rfl, fun _ => by simp [Faithful, qregs2, Reg.last]⟩,
      ⟨by simp, qregs2_covered (by simp), by simp [Faithful, qregs2, Reg.last, List.range'_succ]⟩,
      ⟨by simp, rfl, qregs2_covered (by simp), by simp [Covered, Reg.contains], by simp [Faithful, qregs2, Reg.last, List.range'_succ],
        by simp [Faithful, Reg.last, List.range'_succ],
        fun _ => .inr ⟨⟨⟨0, 2, "a"⟩, by simp [qregs2], rfl⟩, ⟨0, 2, "c"⟩, by simp, rfl⟩⟩⟩
    have : ncs.controls.card = 2 := by decide
    rw [this]
    norm_num

/-- The circuit is imported again, in both versions; the layouts are the same, as its qubits are numbered consecutively. -/
example (qasm3 : Bool) : ∃ text chunks N, exportText printer qasm3 circuit = .ok text ∧ List.Forall₂ (Means printer) ops chunks ∧ ∀ n ≥ N,
    importText exprs builtinFiles n 1 text =
      some (.ok ⟨circuit.init, circuit.outp, qregs2, [⟨0, 2, "c"⟩], chunks.flatten⟩) := by
  have e1 : renumbered circuit.init circuit.init = circuit.init := by decide +kernel
  have e2 : renumbered circuit.init circuit.outp = circuit.outp := by decide +kernel
  obtain ⟨text, chunks, N, h1, h2, h3⟩ := c105_import_partial prints qasm3 (fine qasm3) 0
  rw [e1, e2] at h3
  exact ⟨text, chunks, N, h1, h2, h3⟩

end Demo

end MQT.QASM.Import
