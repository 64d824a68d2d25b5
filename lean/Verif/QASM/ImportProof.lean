/-
Lemmas about importing an exported circuit (Verif/QASM/Import.lean).
-/
import Verif.QASM.Import
import Verif.QASM.PrintExport
import Verif.Props.QASMTypes
import Verif.Props.QASMText
import Verif.Props.QASMExport
import Verif.Props.LayoutHeader
import Verif.Props.QASM

set_option autoImplicit false

namespace MQT.QASM.Import

open MQT.IR
open MQT.QASM.GateCall (Arg Mod Call Gate Gates Exprs Vals Printer parseCompat stdGates importOut importOuts mapRes dumpOp2 dumpOp3 evalCall)
open MQT.QASM.Program (E Statement Files parseText)
open MQT.QASM.Print (Line toStatement toRef natural number IsLine IsOut IsMod bind_ok toDecl)
open MQT.QASM.Scanner (PMap parsePermutation value isNum)
open MQT.QASM.TypeCheck (Kind Accepts Straight Ctx IndexOk OperandOk)
open Function (update)

/-! ### Statements of exported lines -/

/-- No hardware qubits. -/
def Soft : Line → Prop
  | .out (.call c) => ∃ qs : List Operand, c.operands = qs.map .op
  | _ => True

def lineCmd : Line → Cmd
  | .out o => .out o
  | .stmt (.measure t s) => .measure t s
  | .stmt (.reset q) => .reset q
  | .stmt (.barrier l) => .out (.barrier l)

theorem literal_natural (n : ℕ) : literal (natural n) = some n := by
  simp [literal, natural, number]

theorem ofRef_toRef (o : Operand) : ofRef (toRef o) = some o := by
  cases o with
  | reg s => rfl
  | elem s i => simp [toRef, ofRef, literal_natural]

theorem ofOperand_ref (o : Operand) : ofOperand (.ref (toRef o)) = some o := ofRef_toRef o

theorem mapM_map_some {α β γ : Type} {f : β → Option γ} {g : α → β} {h : α → γ} (l : List α) (e : ∀ a ∈ l, f (g a) = some (h a)) :
    (l.map g).mapM f = some (l.map h) := by
  induction l with
  | nil => rfl
  | cons a l ih =>
    rw [List.map_cons, List.mapM_cons, e a (by simp), ih fun b hb => e b (by simp [hb])]
    rfl

theorem ofOperands (qs : List Operand) : (qs.map fun o => Program.Operand.ref (toRef o)).mapM ofOperand = some qs := by
  simpa using mapM_map_some (h := id) qs fun a _ => ofOperand_ref a

theorem ofMod_toMod {m : Mod} (h : IsMod m) : ofMod (Print.toMod m) = some m := by
  cases m with
  | ctrl pos n =>
    simp only [Print.toMod]
    split_ifs with hn
    · simp [ofMod, literal_natural]
    · have : n = 1 := le_antisymm (by omega) h.1
      subst this
      rfl
  | inv => exact absurd h (by simp [IsMod])
  | pow => exact absurd h (by simp [IsMod])

theorem cmd_line {l : Line} (h : IsLine l) (hs : Soft l) : cmd (toStatement l) = some (lineCmd l) := by
  cases l with
  | out o =>
    cases o with
    | call c =>
      obtain ⟨qs, hq⟩ := hs
      obtain ⟨name, ms, args, operands⟩ := c
      simp only at hq
      subst hq
      have h1 : (ms.map Print.toMod).mapM ofMod = some ms := by simpa using mapM_map_some (h := id) ms fun m hm => ofMod_toMod (h.2.1 m hm)
      have h2 := ofOperands qs
      simp only [toStatement, Print.toQuantum, cmd, ofQuantum, ofCall, h1, List.map_map]
      rw [show (Print.toOperand ∘ Arg.op) = fun o => Program.Operand.ref (toRef o) from rfl, h2]
      rfl
    | barrier qs =>
      simp only [toStatement, Print.toQuantum, cmd, ofQuantum, ofOperands, lineCmd]
      rfl
  | stmt s =>
    cases s with
    | measure t q => simp [toStatement, cmd, ofRef_toRef, ofOperand_ref, lineCmd]
    | reset q => simp [toStatement, cmd, ofQuantum, ofOperand_ref, lineCmd]
    | barrier qs =>
      simp only [toStatement, Print.toQuantum, cmd, ofQuantum, ofOperands, lineCmd]
      rfl

/-- The statement as the type check sees it. -/
def lineCheck (X : Exprs E) (ρ : Vals) : Line → TypeCheck.Stmt
  | .stmt (.measure t s) => .assign (toRef t).name (checkedIx (toRef t).ix) (.measure (checkedOperand (.ref (toRef s))))
  | .stmt (.reset q) => .quantum (.reset (checkedOperand (.ref (toRef q))))
  | .stmt (.barrier qs) => .quantum (checkedQuantum (folded X ρ) (Print.toQuantum (.barrier qs)))
  | .out o => .quantum (checkedQuantum (folded X ρ) (Print.toQuantum o))

theorem checked_line (X : Exprs E) (ρ : Vals) (l : Line) : checked X ρ (toStatement l) = some (lineCheck X ρ l) := by
  cases l with
  | out o => rfl
  | stmt s => cases s <;> rfl

def linePair (X : Exprs E) (ρ : Vals) (l : Line) : TypeCheck.Stmt × Cmd := (lineCheck X ρ l, lineCmd l)

theorem commands_map {X : Exprs E} {ρ : Vals} {α : Type} {g : α → Statement} {h : α → TypeCheck.Stmt × Cmd} (l : List α)
    (e : ∀ a ∈ l, checked X ρ (g a) = some (h a).1 ∧ cmd (g a) = some (h a).2) : commands X ρ (l.map g) = some (l.map h) :=
  mapM_map_some l fun a ha => by rw [(e a ha).1, (e a ha).2]; rfl

theorem commands_append {X : Exprs E} {ρ : Vals} {a b : List Statement} {ca cb : List (TypeCheck.Stmt × Cmd)}
    (ha : commands X ρ a = some ca) (hb : commands X ρ b = some cb) : commands X ρ (a ++ b) = some (ca ++ cb) := by
  unfold commands at *
  rw [List.mapM_append, ha, hb]
  rfl

theorem run_append (X : Exprs E) (ρ : Vals) (d : ℕ) (a b : List (TypeCheck.Stmt × Cmd)) (s : TypeCheck.St × St) :
    run X ρ d (a ++ b) s = (run X ρ d a s).bind (run X ρ d b) := by
  induction a generalizing s with
  | nil => rfl
  | cons c a ih =>
    simp only [List.cons_append, run]
    cases TypeCheck.process c.1 s.1 <;> simp only [Res.bind]
    cases step X ρ d s.2 c.2 <;> simp only
    exact ih _

/-! ### The type check of exported lines -/

/-- The registers have their types. -/
structure Typed (Γ : Ctx) (qregs cregs : List Reg) : Prop where
  q : ∀ r ∈ qregs, Γ r.name = some (.sized .qubit r.size)
  c : ∀ r ∈ cregs, Γ r.name = some (.sized .bit r.size)

/-- The register of an operand that is translated. -/
theorem translate_reg {regs : List Reg} {o : Operand} {l : List ℕ} (h : translate regs o = .ok l) :
    ∃ r ∈ regs, r.name = (toRef o).name ∧ ((∃ s, o = .reg s ∧ l.length = r.size) ∨ (∃ s i, o = .elem s i ∧ l.length = 1 ∧ 1 ≤ r.size)) := by
  cases o with
  | reg s =>
    rw [translate] at h
    split at h
    · next r e =>
      cases h
      exact ⟨r, List.mem_of_find?_eq_some e, by simpa [toRef] using List.find?_some e, .inl ⟨s, rfl, by simp⟩⟩
    · cases h
  | elem s i =>
    rw [translate] at h
    split at h
    · next r e =>
      split_ifs at h
      cases h
      exact ⟨r, List.mem_of_find?_eq_some e, by simpa [toRef] using List.find?_some e, .inr ⟨s, i, rfl, rfl, by omega⟩⟩
    · cases h

theorem checkedIx_ok (o : Operand) : IndexOk (checkedIx (toRef o).ix) := by
  cases o with
  | reg s => simp [toRef, checkedIx, IndexOk]
  | elem s i =>
    intro e he
    simp only [toRef, checkedIx, List.flatten_cons, List.flatten_nil, List.append_nil, List.map_cons, List.map_nil, List.mem_singleton] at he
    subst he
    exact ⟨_, rfl, by simp [TypeCheck.constTy, TypeCheck.Ty.isUint]⟩

theorem checkedIx_literal (o : Operand) : TypeCheck.Literals (checkedIx (toRef o).ix) := fun e he => by
  obtain ⟨c, h, _⟩ := checkedIx_ok o e he
  exact ⟨c, h⟩

theorem translateAll_regs {regs : List Reg} : ∀ {qs : List Operand} {l : List ℕ}, translateAll regs qs = .ok l →
    ∀ o ∈ qs, ∃ r ∈ regs, r.name = (toRef o).name := by
  intro qs
  induction qs with
  | nil => intro l _ o ho; cases ho
  | cons a qs ih =>
    intro l h o ho
    obtain ⟨x, h1, h⟩ := bind_ok h
    obtain ⟨y, h2, _⟩ := bind_ok h
    rcases List.mem_cons.1 ho with rfl | ho
    · obtain ⟨r, hr, hn, _⟩ := translate_reg h1
      exact ⟨r, hr, hn⟩
    · exact ih h2 o ho

/-- The arguments of a call that is imported are constant. -/
theorem evalCall_args {X : Exprs E} {G : Gates E} {compat : Bool} {n : ℕ} {regs : List Reg} {ρ : Vals} {c : Call E} {u : UOp ℝ}
    (h : evalCall X G compat n regs ρ c = .ok u) : ∀ e ∈ c.args, (X.ev ρ e).isSome = true := by
  cases n with
  | zero => cases h
  | succ n =>
    rw [evalCall] at h
    split at h
    · cases h
    · split_ifs at h
      obtain ⟨m, _, h⟩ := bind_ok h
      split_ifs at h
      split at h
      · cases h
      · next vals hv =>
        intro e he
        clear h
        generalize c.args = args at hv he
        induction args generalizing vals with
        | nil => cases he
        | cons a l ih =>
          rw [List.mapM_cons] at hv
          cases ha : X.ev ρ a with
          | none => rw [ha] at hv; cases hv
          | some v =>
            rw [ha] at hv
            cases hl : l.mapM (X.ev ρ) with
            | none => rw [hl] at hv; cases hv
            | some vs =>
              rcases List.mem_cons.1 he with rfl | he
              · rw [ha]; rfl
              · exact ih vs hl he

/-- What the importer makes of a line. -/
noncomputable def itemOf (X : Exprs E) (G : Gates E) (compat : Bool) (d : ℕ) (qregs cregs : List Reg) (ρ : Vals) : Line → Res Item
  | .out o => (importOut X G compat d qregs ρ o).bind fun u => .ok (.gate u)
  | .stmt (.barrier l) => (importOut X G compat d qregs ρ (.barrier l)).bind fun u => .ok (.gate u)
  | .stmt s => (importStmt qregs cregs s).bind fun o => .ok (.other o)

/-- A line that is imported is accepted by the type check. -/
theorem line_accepted {X : Exprs E} {G : Gates E} {compat : Bool} {d : ℕ} {qregs cregs : List Reg} {ρ : Vals} {Γ : Ctx} (hΓ : Typed Γ qregs cregs)
    {l : Line} {it : Item} (h : itemOf X G compat d qregs cregs ρ l = .ok it) : Straight (lineCheck X ρ l) ∧ Accepts Γ (lineCheck X ρ l) Γ := by
  have bar : ∀ {qs : List Operand} {u : List ℕ}, translateAll qregs qs = .ok u →
      Straight (.quantum (checkedQuantum (folded X ρ) (Print.toQuantum (.barrier qs)))) ∧
      Accepts Γ (.quantum (checkedQuantum (folded X ρ) (Print.toQuantum (.barrier qs)))) Γ := by
    intro qs u h
    simp only [Print.toQuantum, checkedQuantum, List.map_map]
    refine ⟨fun q hq => ?_, .quantum fun q hq => ?_⟩ <;> obtain ⟨o, ho, rfl⟩ := List.mem_map.1 hq
    · exact checkedIx_literal o
    · obtain ⟨r, hr, hn⟩ := translateAll_regs h o ho
      refine ⟨?_, checkedIx_ok o⟩
      rw [← hn, hΓ.q r hr]
      simp
  cases l with
  | out o =>
    obtain ⟨u, h, _⟩ := bind_ok h
    cases o with
    | call c =>
      refine ⟨fun e he => ?_, .quantum trivial⟩
      obtain ⟨a, ha, rfl⟩ := List.mem_map.1 he
      exact ⟨_, if_pos (evalCall_args h a ha)⟩
    | barrier qs =>
      obtain ⟨l, h, _⟩ := bind_ok h
      exact bar h
  | stmt s =>
    cases s with
    | measure t q =>
      obtain ⟨o, h, _⟩ := bind_ok h
      obtain ⟨qs, h1, h⟩ := bind_ok h
      obtain ⟨bs, h2, h⟩ := bind_ok h
      split_ifs at h with hl
      push Not at hl
      obtain ⟨r, hr, hn, hc⟩ := translate_reg h1
      obtain ⟨r', hr', hn', hc'⟩ := translate_reg h2
      have hq := hΓ.q r hr
      have ht := hΓ.c r' hr'
      rw [hn] at hq
      rw [hn'] at ht
      refine ⟨⟨checkedIx_literal t, _, rfl, checkedIx_literal q⟩, ?_⟩
      have hle : ∃ w, TypeCheck.MeasureTy Γ (checkedOperand (.ref (toRef q))) (.sized .bit w) ∧ w ≤ r'.size := by
        rcases hc with ⟨s, rfl, e⟩ | ⟨s, i, rfl, e, _⟩
        · refine ⟨r.size, .whole hq, ?_⟩
          rcases hc' with ⟨s', rfl, e'⟩ | ⟨s', i', rfl, e', e2⟩ <;> omega
        · refine ⟨1, .elem (by rw [hq]; simp) (checkedIx_ok (.elem s i)) (by simp [toRef, checkedIx]), ?_⟩
          rcases hc' with ⟨s', rfl, e'⟩ | ⟨s', i', rfl, e', e2⟩ <;> omega
      obtain ⟨w, hm, hw⟩ := hle
      exact .assign ht (checkedIx_ok t) hm (by simpa [TypeCheck.Ty.fits] using hw)
    | reset q =>
      obtain ⟨o, h, _⟩ := bind_ok h
      obtain ⟨qs, h1, h⟩ := bind_ok h
      obtain ⟨r, hr, hn, hc⟩ := translate_reg h1
      refine ⟨checkedIx_literal q, .quantum ⟨?_, checkedIx_ok q⟩⟩
      rw [← hn, hΓ.q r hr]
      simp
    | barrier qs =>
      obtain ⟨u, h, _⟩ := bind_ok h
      obtain ⟨l, h, _⟩ := bind_ok h
      exact bar h

theorem accepts_same {Γ Γ' : Ctx} {X : Exprs E} {ρ : Vals} {l : Line} (h : Accepts Γ (lineCheck X ρ l) Γ') : Γ' = Γ := by
  cases l with
  | out o => generalize hx : lineCheck X ρ (.out o) = x at h
             cases h <;> first | rfl | cases hx
  | stmt s =>
    generalize hx : lineCheck X ρ (.stmt s) = x at h
    cases s <;> cases h <;> first | rfl | cases hx

/-! ### Importing exported lines -/

theorem mapRes_cons {α β : Type} {f : α → Res β} {a : α} {l : List α} {r : List β} (h : mapRes f (a :: l) = .ok r) :
    ∃ b t, f a = .ok b ∧ mapRes f l = .ok t ∧ r = b :: t := by
  obtain ⟨b, h1, h⟩ := bind_ok h
  obtain ⟨t, h2, h⟩ := bind_ok h
  cases h
  exact ⟨b, t, h1, h2, rfl⟩

theorem mapRes_append {α β : Type} {f : α → Res β} {a b : List α} {x y : List β} (ha : mapRes f a = .ok x) (hb : mapRes f b = .ok y) :
    mapRes f (a ++ b) = .ok (x ++ y) := by
  induction a generalizing x with
  | nil => cases ha; exact hb
  | cons c a ih =>
    obtain ⟨u, t, h1, h2, rfl⟩ := mapRes_cons ha
    simp only [List.cons_append, mapRes, h1, Res.bind, ih h2]

theorem step_line {X : Exprs E} {ρ : Vals} {d : ℕ} {s : St} (hd : ∀ r ∈ s.cregs, s.decls.lookup r.name = some .bit) {l : Line} {it : Item}
    (h : itemOf X s.gates s.compat d s.qregs s.cregs ρ l = .ok it) : step X ρ d s (lineCmd l) = .ok { s with ops := s.ops ++ [it] } := by
  cases l with
  | out o =>
    obtain ⟨u, hi, e⟩ := bind_ok h
    cases e
    simp only [lineCmd, step, hi, Res.bind]
  | stmt st =>
    cases st with
    | measure t q =>
      obtain ⟨o, hi, e⟩ := bind_ok h
      cases e
      obtain ⟨qs, h1, hi'⟩ := bind_ok hi
      obtain ⟨bs, h2, _⟩ := bind_ok hi'
      obtain ⟨r, hr, hn, _⟩ := translate_reg h2
      have hb := hd r hr
      rw [hn] at hb
      have : s.decls.lookup (base t) = some .bit := by
        cases t <;> exact hb
      simp only [lineCmd, step, measure, this, hi, Res.bind]
    | reset q =>
      obtain ⟨o, hi, e⟩ := bind_ok h
      cases e
      simp only [lineCmd, step, hi, Res.bind]
    | barrier qs =>
      obtain ⟨u, hi, e⟩ := bind_ok h
      cases e
      simp only [lineCmd, step, hi, Res.bind]

/-- The lines of an exported circuit are imported one by one. -/
theorem run_lines {X : Exprs E} {ρ : Vals} {d : ℕ} (ls : List Line) : ∀ {t : TypeCheck.St} {s : St} {items : List Item}, t.Valid → t.err = false →
    Typed t.ctx s.qregs s.cregs → (∀ r ∈ s.cregs, s.decls.lookup r.name = some .bit) →
    mapRes (itemOf X s.gates s.compat d s.qregs s.cregs ρ) ls = .ok items →
    ∃ t', run X ρ d (ls.map (linePair X ρ)) (t, s) = .ok (t', { s with ops := s.ops ++ items }) := by
  induction ls with
  | nil =>
    intro t s items _ _ _ _ h
    cases h
    exact ⟨t, by simp [run]⟩
  | cons l ls ih =>
    intro t s items hv he hΓ hd h
    obtain ⟨it, items, h1, h2, rfl⟩ := mapRes_cons h
    obtain ⟨hs, ha⟩ := line_accepted hΓ h1
    rcases TypeCheck.process_straight hs hv he with ⟨t1, e1, hv1, he1, ha1⟩ | ⟨hn, _⟩
    · have hctx := accepts_same ha1
      obtain ⟨t', e⟩ := ih (t := t1) (s := { s with ops := s.ops ++ [it] }) (items := items) hv1 he1 (by rw [hctx]; exact hΓ) hd h2
      refine ⟨t', ?_⟩
      simp only [List.map_cons, run, linePair, e1, Res.bind, step_line hd h1]
      rw [e]
      simp
    · exact absurd ha (hn _)

/-! ### Declarations -/

/-- The registers follow one another. -/
def Stacked : ℕ → List Reg → Prop
  | _, [] => True
  | k, r :: l => r.start = k ∧ Stacked (k + r.size) l

def kindOf (quantum : Bool) : Kind := if quantum then .qubit else .bit

def declPair (quantum : Bool) (r : Reg) : TypeCheck.Stmt × Cmd :=
  (.decl (.sized (kindOf quantum) (some (.int false r.size))) r.name none, .decl (kindOf quantum) r.size r.name)

theorem decl_pair (X : Exprs E) (ρ : Vals) (quantum : Bool) (r : Reg) :
    checked X ρ (toDecl quantum r) = some (declPair quantum r).1 ∧ cmd (toDecl quantum r) = some (declPair quantum r).2 := by
  cases quantum <;> simp [toDecl, checked, cmd, ofTy, checkedSize, natural, number, declPair, kindOf, ofSize, literal]

/-- The registers of a kind. -/
def St.regs (s : St) (quantum : Bool) : List Reg := if quantum then s.qregs else s.cregs

def St.withRegs (s : St) (quantum : Bool) (l : List Reg) : St := if quantum then { s with qregs := l } else { s with cregs := l }

/-- The state after the declarations. -/
def St.declared (s : St) (quantum : Bool) (l : List Reg) : St :=
  { s.withRegs quantum (s.regs quantum ++ l) with decls := (l.map fun r => (r.name, kindOf quantum)).reverse ++ s.decls }

theorem step_decl {X : Exprs E} {ρ : Vals} {d : ℕ} {s : St} {quantum : Bool} {r : Reg} (h0 : 0 < r.size) (hs : r.start = total (s.regs quantum))
    (hn : r.name ∉ s.decls.map Prod.fst) (hr : ∀ r' ∈ s.regs quantum, r'.name ≠ r.name) :
    step X ρ d s (declPair quantum r).2 = .ok (s.declared quantum [r]) := by
  obtain ⟨start, size, name⟩ := r
  simp only at hs h0 hn hr
  subst hs
  have ha : addReg size name (s.regs quantum) = .ok (s.regs quantum ++ [⟨total (s.regs quantum), size, name⟩]) := by
    unfold addReg
    rw [if_neg (by simpa using hr), if_neg (by omega)]
  cases quantum
  · simp only [St.regs, Bool.false_eq_true, if_false] at ha
    simp only [declPair, kindOf, step, declare, if_neg hn, Bool.false_eq_true, if_false, ha, Res.bind, St.declared, St.withRegs, St.regs]
    rfl
  · simp only [St.regs, if_true] at ha
    simp only [declPair, kindOf, step, declare, if_neg hn, if_true, ha, Res.bind, St.declared, St.withRegs, St.regs]
    rfl

theorem total_append (a b : List Reg) : total (a ++ b) = total a + total b := by simp [total]

theorem regs_declared (s : St) (quantum : Bool) (l : List Reg) : (s.declared quantum l).regs quantum = s.regs quantum ++ l := by
  cases quantum <;> rfl

theorem declared_cons (s : St) (quantum : Bool) (r : Reg) (l : List Reg) :
    (s.declared quantum [r]).declared quantum l = s.declared quantum (r :: l) := by
  cases quantum <;> simp [St.declared, St.withRegs, St.regs]

theorem run_decls {X : Exprs E} {ρ : Vals} {d : ℕ} (quantum : Bool) (l : List Reg) : ∀ {t : TypeCheck.St} {s : St}, t.Valid → t.err = false →
    Stacked (total (s.regs quantum)) l → (∀ r ∈ l, 0 < r.size ∧ r.size < 2 ^ 63) → (l.map Reg.name).Nodup →
    (∀ r ∈ l, r.name ∉ s.decls.map Prod.fst ∧ t.ctx r.name = none ∧ ∀ r' ∈ s.regs quantum, r'.name ≠ r.name) →
    ∃ t', run X ρ d (l.map (declPair quantum)) (t, s) = .ok (t', s.declared quantum l) ∧ t'.Valid ∧ t'.err = false ∧
      (∀ r ∈ l, t'.ctx r.name = some (.sized (kindOf quantum) r.size)) ∧ ∀ y, y ∉ l.map Reg.name → t'.ctx y = t.ctx y := by
  induction l with
  | nil =>
    intro t s hv he _ _ _ _
    refine ⟨t, ?_, hv, he, by simp, fun _ _ => rfl⟩
    cases quantum <;> simp [run, St.declared, St.withRegs, St.regs]
  | cons r l ih =>
    intro t s hv he hs hsz hnd hn
    obtain ⟨n1, n2, n3⟩ := hn r (by simp)
    obtain ⟨z1, z2⟩ := hsz r (by simp)
    rw [List.map_cons, List.nodup_cons] at hnd
    obtain ⟨t1, p1, v1, e1, c1, c2⟩ := TypeCheck.c104_declared (k := kindOf quantum) (n := r.size) (by omega) hv he n2
    have hst := step_decl (X := X) (ρ := ρ) (d := d) z1 hs.1 n1 n3
    have hne : ∀ r' ∈ l, r'.name ≠ r.name := fun r' hr' e => hnd.1 (e ▸ List.mem_map_of_mem hr')
    obtain ⟨t', p2, v2, e2, d1, d2⟩ := ih (t := t1) (s := s.declared quantum [r]) v1 e1
      (by rw [regs_declared, total_append]; simpa [total] using hs.2) (fun r' hr' => hsz r' (by simp [hr'])) hnd.2 fun r' hr' => by
        obtain ⟨m1, m2, m3⟩ := hn r' (by simp [hr'])
        refine ⟨?_, (c2 _ (hne r' hr')).trans m2, fun r2 hr2 => ?_⟩
        · intro hm
          have : r'.name = r.name ∨ r'.name ∈ s.decls.map Prod.fst := by
            cases quantum <;> simpa [St.declared, St.withRegs] using hm
          exact this.elim (hne r' hr') m1
        · rw [regs_declared] at hr2
          rcases List.mem_append.1 hr2 with hr2 | hr2
          · exact m3 r2 hr2
          · rw [List.mem_singleton.1 hr2]
            exact (hne r' hr').symm
    refine ⟨t', ?_, v2, e2, ?_, ?_⟩
    · simp only [List.map_cons, run]
      rw [show (declPair quantum r).1 = .decl (.sized (kindOf quantum) (some (.int false r.size))) r.name none from rfl, p1]
      simp only [Res.bind, hst]
      rw [p2, declared_cons]
    · intro r' hr'
      rcases List.mem_cons.1 hr' with rfl | hr'
      · rw [d2 _ hnd.1, c1]
      · exact d1 r' hr'
    · intro y hy
      simp only [List.map_cons, List.mem_cons, not_or] at hy
      rw [d2 y hy.2, c2 y hy.1]

theorem stacked_bounds {l : List Reg} : ∀ {k : ℕ}, Stacked k l → ∀ r ∈ l, k ≤ r.start := by
  induction l with
  | nil => intro k _ r hr; cases hr
  | cons a l ih =>
    intro k h r hr
    rcases List.mem_cons.1 hr with rfl | hr
    · exact h.1.ge
    · exact le_trans (by omega) (ih h.2 r hr)

theorem stacked_wf {l : List Reg} : ∀ {k : ℕ}, Stacked k l → (l.map Reg.name).Nodup → WF l := by
  induction l with
  | nil => intro k _ _; exact .nil
  | cons a l ih =>
    intro k h hn
    rw [List.map_cons, List.nodup_cons] at hn
    refine List.pairwise_cons.2 ⟨fun r hr => ⟨fun e => hn.1 (e ▸ List.mem_map_of_mem hr), fun i hi => ?_⟩, ih h.2 hn.2⟩
    have := stacked_bounds h.2 r hr
    have := h.1
    simp only [Reg.contains, decide_eq_true_eq] at hi
    omega

end MQT.QASM.Import
