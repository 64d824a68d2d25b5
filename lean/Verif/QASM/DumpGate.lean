/-
Exporting standard operations to OpenQASM (`StandardOperation::dumpOpenQASM`, `dumpOpenQASM2`, `dumpOpenQASM3`, `dumpGateType`,
src/ir/operations/StandardOperation.cpp 253-495, and `dumpControls`, 645-701) and importing the statements
(Verif/QASM/GateCall.lean).

The statements exported are syntax trees: printing and parsing the text are not modelled.  A parameter is printed with 15
digits; `rnd` is the value of what is printed, and arbitrary.  An operation without a name in OpenQASM is exported as a
call of the gate whose name is what is printed, that is, the letters `c` in front or nothing.
-/
import Verif.QASM.StdGates
import Mathlib.Data.Finset.Sort
import Mathlib.Data.Prod.Lex
import Mathlib.Order.BooleanAlgebra.Basic

set_option autoImplicit false

namespace MQT.QASM.GateCall

open MQT.IR
open Function (update)

variable {E : Type}

/-! ### Model -/

/-- How numbers are printed: a parameter, and `pi/k` or `-pi/k`, where `pi` is declared (Importer.cpp 87). -/
structure Printer (X : Exprs E) where
  rnd : ℝ → ℝ
  num : ℝ → E
  piOver : Bool → ℕ → E
  ev_num : ∀ ρ v, X.ev ρ (num v) = some (rnd v)
  ev_piOver : ∀ ρ : Vals, ρ "pi" = some Real.pi → ∀ neg k, X.ev ρ (piOver neg k) = some ((if neg then -Real.pi else Real.pi) / k)

/-- A statement exported. -/
inductive Out (E : Type)
  | call (c : Call E)
  | barrier (qs : List Operand)

/-- The controls in the order of the set (Control.hpp 72-75). -/
noncomputable def sortCtrls (cs : Finset Ctrl) : List Ctrl :=
  ((cs.map toLex.toEmbedding).sort (fun a b => a ≤ b)).map ofLex

/-- The letters `c` in front of a name. -/
def cs (n : ℕ) (name : String) : String := String.ofList (List.replicate n 'c' ++ name.toList)

/-- The loop over the controls (StandardOperation.cpp 679-700), with the polarity and the number of the controls counted. -/
def ctrlMods (cur : Bool) (count : ℕ) : List Bool → List Mod
  | [] => [.ctrl cur count]
  | b :: l => if b = cur then ctrlMods cur (count + 1) l else .ctrl cur count :: ctrlMods b 1 l

/-- The number of controls for which a gate is in stdgates.inc (StandardOperation.cpp 656-672). -/
def builtin (type : OpType) (n : ℕ) : Bool :=
  match type with
  | .p | .rx | .y | .ry | .z | .rz | .h | .swap => n = 1
  | .x => n = 1 ∨ n = 2
  | _ => false

/-- `dumpControls` (StandardOperation.cpp 645-701): the letters in front of the name, or modifiers. -/
def dumpControls (type : OpType) (pols : List Bool) : ℕ × List Mod :=
  match pols with
  | [] => (0, [])
  | b :: l =>
    if pols.all (fun b => b) && builtin type pols.length then (pols.length, [])
    else (0, ctrlMods b 0 (b :: l))

/-- The name and the parameters of a gate (StandardOperation.cpp 320-455); `ub` if a parameter is missing (`at` throws
for `gphase`). -/
def gateName {X : Exprs E} (P : Printer X) (type : OpType) (controlled : Bool) (ps : List ℝ) : Res (String × List E) :=
  let one (name : String) : Res (String × List E) := match ps[0]? with | some a => .ok (name, [P.num a]) | none => .ub
  let two (name : String) : Res (String × List E) :=
    match ps[0]?, ps[1]? with | some a, some b => .ok (name, [P.num a, P.num b]) | _, _ => .ub
  match type with
  | .gphase => match ps[0]? with | some a => .ok ("gphase", [P.num a]) | none => .throw
  | .i => .ok ("id", [])
  | .h => .ok ("h", [])
  | .x => .ok ("x", [])
  | .y => .ok ("y", [])
  | .z => .ok ("z", [])
  | .s => if controlled then .ok ("p", [P.piOver false 2]) else .ok ("s", [])
  | .sdg => if controlled then .ok ("p", [P.piOver true 2]) else .ok ("sdg", [])
  | .t => if controlled then .ok ("p", [P.piOver false 4]) else .ok ("t", [])
  | .tdg => if controlled then .ok ("p", [P.piOver true 4]) else .ok ("tdg", [])
  | .v => .ok ("U", [P.piOver false 2, P.piOver true 2, P.piOver false 2])
  | .vdg => .ok ("U", [P.piOver false 2, P.piOver false 2, P.piOver true 2])
  | .u => match ps[0]?, ps[1]?, ps[2]? with
    | some a, some b, some c => .ok ("U", [P.num a, P.num b, P.num c])
    | _, _, _ => .ub
  | .u2 => match ps[0]?, ps[1]? with
    | some a, some b => .ok ("U", [P.piOver false 2, P.num a, P.num b])
    | _, _ => .ub
  | .p => one "p"
  | .sx => .ok ("sx", [])
  | .sxdg => .ok ("sxdg", [])
  | .rx => one "rx"
  | .ry => one "ry"
  | .rz => one "rz"
  | .dcx => .ok ("dcx", [])
  | .ecr => .ok ("ecr", [])
  | .rxx => one "rxx"
  | .ryy => one "ryy"
  | .rzz => one "rzz"
  | .rzx => one "rzx"
  | .xxminusyy => two "xx_minus_yy"
  | .xxplusyy => two "xx_plus_yy"
  | .swap => .ok ("swap", [])
  | .iswap => .ok ("iswap", [])
  | .iswapdg => .ok ("iswapdg", [])
  | .move => .ok ("move", [])
  | _ => .ok ("", [])

/-- A call with these letters in front and modifiers, on these qubits. -/
def dumpCall (regs : List Reg) (k : ℕ) (ms : List Mod) (name : String) (args : List E) (qs : List ℕ) : Res (Out E) :=
  (dumpOperands regs qs).bind fun l => .ok (.call ⟨cs k name, ms, args, l.map .op⟩)

/-- `dumpGateType` (StandardOperation.cpp 316-495).  A barrier with controls fails an assertion. -/
def dumpGateType {X : Exprs E} (P : Printer X) (regs : List Reg) (k : ℕ) (ms : List Mod) (type : OpType) (ps : List ℝ) (cqs ts : List ℕ) :
    Res (List (Out E)) :=
  match type with
  | .barrier =>
    if cqs ≠ [] then .ub
    else (dump regs [] true (.barrier ts)).bind fun l =>
      .ok (l.filterMap fun | .barrier l => some (.barrier l) | _ => none)
  | .peres => match ts with
    | t0 :: t1 :: _ => (dumpCall regs k ms "cx" [] (cqs ++ [t1, t0])).bind fun a =>
      (dumpCall regs k ms "x" [] (cqs ++ [t1])).bind fun b => .ok [a, b]
    | _ => .ub
  | .peresdg => match ts with
    | t0 :: t1 :: _ => (dumpCall regs k ms "x" [] (cqs ++ [t1])).bind fun a =>
      (dumpCall regs k ms "cx" [] (cqs ++ [t1, t0])).bind fun b => .ok [a, b]
    | _ => .ub
  | _ => (gateName P type (!cqs.isEmpty) ps).bind fun g => (dumpCall regs k ms g.1 g.2 (cqs ++ ts)).bind fun a => .ok [a]

/-- The X gates on the negative controls (StandardOperation.cpp 286-293, 297-304). -/
def dumpX (regs : List Reg) : List Ctrl → Res (List (Out E))
  | [] => .ok []
  | (q, pos) :: l => if pos then dumpX regs l
    else (dumpCall regs 0 [] "x" [] [q]).bind fun a => (dumpX regs l).bind fun r => .ok (a :: r)

/-- `dumpOpenQASM2` (StandardOperation.cpp 270-306). -/
noncomputable def dumpOp2 {X : Exprs E} (P : Printer X) (regs : List Reg) (o : StdOp ℝ) : Res (List (Out E)) :=
  let c := sortCtrls o.controls
  let main := dumpGateType P regs c.length [] o.type o.params (c.map Prod.fst) o.targets
  if o.type = .peres ∨ o.type = .peresdg then main
  else (dumpX regs c).bind fun a => main.bind fun m => .ok (a ++ (m ++ a))

/-- `dumpOpenQASM3` (StandardOperation.cpp 308-314). -/
noncomputable def dumpOp3 {X : Exprs E} (P : Printer X) (regs : List Reg) (o : StdOp ℝ) : Res (List (Out E)) :=
  let c := sortCtrls o.controls
  let d := dumpControls o.type (c.map Prod.snd)
  dumpGateType P regs d.1 d.2 o.type o.params (c.map Prod.fst) o.targets

/-- Importing a statement (`visitGateCallStatement`, `visitBarrierStatement`, Importer.cpp 477-486, 874-882). -/
noncomputable def importOut (X : Exprs E) (G : Gates E) (compat : Bool) (n : ℕ) (regs : List Reg) (ρ : Vals) : Out E → Res (UOp ℝ)
  | .call c => evalCall X G compat n regs ρ c
  | .barrier l => (translateAll regs l).bind fun qs => .ok (.std ⟨.barrier, [], ∅, qs⟩)

noncomputable def importOuts (X : Exprs E) (G : Gates E) (compat : Bool) (n : ℕ) (regs : List Reg) (ρ : Vals) (l : List (Out E)) :
    Res (List (UOp ℝ)) := mapRes (importOut X G compat n regs ρ) l

/-- The gates declared when an exported file is read: the standard ones, and three more of the files included
(StdGates.hpp 23-47). -/
def Included (G : Gates E) : Prop := ∀ name, name ∉ ["cu", "rccx", "rc3x"] → G name = stdGates name

/-! ### Lemmas -/

theorem sortCtrls_toFinset (cs : Finset Ctrl) : (sortCtrls cs).toFinset = cs := by
  ext c
  simp [sortCtrls]

theorem mem_sortCtrls {cs : Finset Ctrl} {c : Ctrl} : c ∈ sortCtrls cs ↔ c ∈ cs := by
  rw [← List.mem_toFinset, sortCtrls_toFinset]

theorem sortCtrls_nodup (cs : Finset Ctrl) : (sortCtrls cs).Nodup :=
  (Finset.sort_nodup _ _).map ofLex.injective

/-- No qubit is a control twice. -/
def Distinct (cs : Finset Ctrl) : Prop := ∀ c ∈ cs, ∀ d ∈ cs, c.1 = d.1 → c = d

theorem sortCtrls_qubits_nodup {cs : Finset Ctrl} (h : Distinct cs) : ((sortCtrls cs).map Prod.fst).Nodup :=
  List.Nodup.map_on (fun c hc d hd e => h c (mem_sortCtrls.1 hc) d (mem_sortCtrls.1 hd) e) (sortCtrls_nodup cs)

theorem polarities_ctrlMods (cur : Bool) (count : ℕ) (l : List Bool) :
    polarities (ctrlMods cur count l) = List.replicate count cur ++ l := by
  induction l generalizing cur count with
  | nil => simp [ctrlMods, polarities]
  | cons b l ih =>
    unfold ctrlMods
    split_ifs with h
    · subst h
      rw [ih, List.replicate_succ']
      simp
    · rw [polarities, ih]
      simp

theorem ctrlMods_ctrl (cur : Bool) (count : ℕ) (l : List Bool) : ∀ m ∈ ctrlMods cur count l, ∃ b n, m = .ctrl b n := by
  induction l generalizing cur count with
  | nil => simp [ctrlMods]
  | cons b l ih =>
    unfold ctrlMods
    split_ifs with h
    · exact ih _ _
    · intro m hm
      rcases List.mem_cons.1 hm with rfl | hm
      · exact ⟨_, _, rfl⟩
      · exact ih _ _ m hm

/-- The loop over modifiers that are all `ctrl` or `negctrl`. -/
theorem modLoop_ctrl (ts : List Arg) (ms : List Mod) (hms : ∀ m ∈ ms, ∃ b n, m = .ctrl b n) (nC : ℕ) (pols : List Bool)
    (hp : pols.length = nC) (hlen : nC + (polarities ms).length ≤ ts.length) :
    modLoop ts ms nC ((ts.take nC).zip pols) false =
      .ok (nC + (polarities ms).length, (ts.take (nC + (polarities ms).length)).zip (pols ++ polarities ms), false) := by
  induction ms generalizing nC pols with
  | nil => simp [modLoop, polarities]
  | cons m ms ih =>
    obtain ⟨b, n, rfl⟩ := hms m (by simp)
    simp only [polarities, List.length_append, List.length_replicate] at hlen
    have hmod : (n + nC) % 2 ^ 64 ≤ n + nC := Nat.mod_le _ _
    rw [modLoop, if_neg (by omega), if_neg (by omega)]
    have e : (ts.take nC).zip pols ++ ((ts.drop nC).take n).map (fun a => (a, b)) =
        (ts.take (nC + n)).zip (pols ++ List.replicate n b) := by
      rw [List.take_add, List.zip_append (by simp; omega)]
      congr 1
      refine List.ext_getElem (by simp) fun i h1 h2 => ?_
      simp
    rw [e, ih (fun m hm => hms m (by simp [hm])) _ _ (by simp [hp]) (by omega)]
    simp only [polarities, List.length_append, List.length_replicate, List.append_assoc, Nat.add_assoc]

/-- A call on single qubits, with modifiers that are all `ctrl` or `negctrl`. -/
theorem evalCall_ctrl {X : Exprs E} {G : Gates E} {compat : Bool} {n : ℕ} {regs : List Reg} {ρ : Vals} {name : String} {k : ℕ}
    {args : List E} {operands : List Arg} {ms : List Mod} (hms : ∀ m ∈ ms, ∃ b n, m = .ctrl b n) {g : Gate E} {vals : List ℝ}
    {cqs ts : List ℕ} {pols : List Bool} (hl : lookup X G compat name operands.length = some (g, k))
    (hv : args.mapM (X.ev ρ) = some vals) (hvl : vals.length = g.nParams) (hs : Singles regs operands (cqs ++ ts)) (hnd : (cqs ++ ts).Nodup)
    (hpols : pols = List.replicate (g.nControls + k) true ++ polarities ms) (hc : cqs.length = pols.length) (ht : ts.length = g.nTargets) :
    evalCall X G compat (n + 1) regs ρ ⟨name, ms, args, operands⟩ =
      applyGate (evalCall X G compat n) ρ g ts (cqs.zip pols) vals false := by
  have hol : operands.length = cqs.length + ts.length := by rw [hs.length_eq]; simp
  have hpl : pols.length = g.nControls + k + (polarities ms).length := by rw [hpols]; simp
  have hargs : args.length = vals.length := (mapM_length hv).symm
  have hz : (operands.take (g.nControls + k)).map (fun a => (a, true)) =
      (operands.take (g.nControls + k)).zip (List.replicate (g.nControls + k) true) := by
    refine List.ext_getElem (by simp) fun i h1 h2 => ?_
    simp
  have hm := modLoop_ctrl operands ms hms (g.nControls + k) (List.replicate (g.nControls + k) true) (by simp) (by omega)
  rw [evalCall]
  simp only [hl]
  rw [if_neg (by omega), if_neg (by omega), hz, hm]
  simp only [Res.bind, List.length_drop]
  rw [if_neg (by omega), hv]
  simp only
  rw [← hpols, ← hpl, ← hc]
  have hd : Singles regs (operands.drop cqs.length) ts := by
    have := List.forall₂_drop cqs.length hs
    rwa [List.drop_left] at this
  have htk : Singles regs (operands.take cqs.length) cqs := by
    have := List.forall₂_take cqs.length hs
    rwa [List.take_left] at this
  have hlt : (operands.take cqs.length).length = pols.length := by simp; omega
  rw [collect_singles hd, List.map_fst_zip (by omega), List.map_snd_zip (by omega)]
  simp only [collect_singles htk, instances, if_true, instanceOf, map_pick_singles]
  rw [if_pos hnd]

/-! ### Names -/

/-- The names of gates exported, with the number of targets and parameters and the type imported. -/
def exported : List (String × ℕ × ℕ × OpType) :=
  [("gphase", 0, 1, .gphase), ("id", 1, 0, .i), ("h", 1, 0, .h), ("x", 1, 0, .x), ("y", 1, 0, .y), ("z", 1, 0, .z), ("s", 1, 0, .s),
   ("sdg", 1, 0, .sdg), ("t", 1, 0, .t), ("tdg", 1, 0, .tdg), ("p", 1, 1, .p), ("U", 1, 3, .u), ("sx", 1, 0, .sx), ("sxdg", 1, 0, .sxdg),
   ("rx", 1, 1, .rx), ("ry", 1, 1, .ry), ("rz", 1, 1, .rz), ("dcx", 2, 0, .dcx), ("ecr", 2, 0, .ecr), ("rxx", 2, 1, .rxx), ("ryy", 2, 1, .ryy),
   ("rzz", 2, 1, .rzz), ("rzx", 2, 1, .rzx), ("xx_minus_yy", 2, 2, .xxminusyy), ("xx_plus_yy", 2, 2, .xxplusyy), ("swap", 2, 0, .swap),
   ("iswap", 2, 0, .iswap), ("iswapdg", 2, 0, .iswapdg)]

theorem cs_zero (name : String) : cs 0 name = name := by simp [cs]

theorem takeWhile_cs (k : ℕ) (rest : List Char) (h : rest.head? ≠ some 'c') :
    (List.replicate k 'c' ++ rest).takeWhile (· = 'c') = List.replicate k 'c' ∧
      (List.replicate k 'c' ++ rest).dropWhile (· = 'c') = rest := by
  induction k with
  | zero => cases rest with
    | nil => simp
    | cons a l => have : a ≠ 'c' := by simpa using h
                  simp [this]
  | succ k ih => simp [List.replicate_succ, ih.1, ih.2]

/-- The facts about names that are checked one by one. -/
theorem exported_facts : ∀ i ∈ exported, i.1.toList.head? ≠ some 'c' ∧ i.1 ∉ ["u", "rccx", "rc3x"] ∧
    i.1 ∉ ["mcx", "mcx_gray", "mcx_vchain", "mcx_recursive", "mcphase"] ∧ stdTable.lookup i.1 = some (0, i.2) ∧
    ∀ k ∈ [1, 2], stdTable.lookup (cs k i.1) = none ∨ stdTable.lookup (cs k i.1) = some (k, i.2) := by
  decide +kernel

theorem stdTable_cs : ∀ i ∈ stdTable, (i.1.toList.takeWhile (· = 'c')).length ≤ 2 := by
  decide +kernel

theorem lookup_mem {l : List (String × ℕ × ℕ × ℕ × OpType)} {name : String} {i : ℕ × ℕ × ℕ × OpType} (hl : l.lookup name = some i) :
    (name, i) ∈ l := by
  induction l with
  | nil => cases hl
  | cons p l ih =>
    obtain ⟨x, j⟩ := p
    rw [List.lookup_cons] at hl
    by_cases hx : name = x
    · subst hx; simp_all
    · rw [show (name == x) = false by simpa using hx] at hl
      exact List.mem_cons_of_mem _ (ih hl)

theorem cs_included {G : Gates E} (hG : Included G) {i : String × ℕ × ℕ × OpType} (hi : i ∈ exported) (k : ℕ) :
    G (cs k i.1) = stdGates (cs k i.1) := by
  obtain ⟨h1, h2, -⟩ := exported_facts i hi
  apply hG
  intro hm
  have hdrop : (cs k i.1).toList.dropWhile (· = 'c') = i.1.toList := by
    simp only [cs, String.toList_ofList]
    exact (takeWhile_cs k _ h1).2
  apply h2
  have : i.1 = String.ofList ((cs k i.1).toList.dropWhile (· = 'c')) := by rw [hdrop, String.ofList_toList]
  rw [this]
  simp only [List.mem_cons, List.not_mem_nil, or_false] at hm
  rcases hm with hm | hm | hm <;> rw [hm] <;> decide +kernel

/-- A name with letters `c` in front, in compatibility mode. -/
theorem lookup_cs {X : Exprs E} {G : Gates E} (hG : Included G) {i : String × ℕ × ℕ × OpType} (hi : i ∈ exported) (k : ℕ) :
    ∃ nC j, (∀ n, lookup X G true (cs k i.1) n = some (.std nC i.2.1 i.2.2.1 i.2.2.2, j)) ∧ nC + j = k := by
  obtain ⟨h1, h2, h3, h4, h5⟩ := exported_facts i hi
  have hlist : (cs k i.1).toList = List.replicate k 'c' ++ i.1.toList := by simp [cs]
  have hG0 : G i.1 = some (.std 0 i.2.1 i.2.2.1 i.2.2.2) := by
    have := cs_included hG hi 0
    rw [cs_zero] at this
    rw [this, stdGates, h4]
    rfl
  rcases Nat.eq_zero_or_pos k with rfl | hk
  · refine ⟨0, 0, fun n => ?_, rfl⟩
    rw [cs_zero, lookup, hG0]
  · cases hG1 : G (cs k i.1) with
    | some g =>
      rw [cs_included hG hi, stdGates, Option.map_eq_some_iff] at hG1
      obtain ⟨e, he, rfl⟩ := hG1
      have hle : k ≤ 2 := by
        have := stdTable_cs _ (lookup_mem he)
        simp only [hlist, (takeWhile_cs k _ h1).1, List.length_replicate] at this
        exact this
      have : e = (k, i.2) := by
        rcases h5 k (by simp; omega) with h | h <;> rw [h] at he <;> cases he
        rfl
      subst this
      refine ⟨k, 0, fun n => ?_, rfl⟩
      rw [lookup, cs_included hG hi, stdGates, he]
      rfl
    | none =>
      have hmc : cs k i.1 ∉ ["mcx", "mcx_gray", "mcx_vchain", "mcx_recursive", "mcphase"] := by
        intro hm
        obtain ⟨k, rfl⟩ : ∃ m, k = m + 1 := ⟨k - 1, by omega⟩
        have hd : (cs (k + 1) i.1).toList.head? = some 'c' := by simp [hlist, List.replicate_succ]
        simp only [List.mem_cons, List.not_mem_nil, or_false] at hm
        rcases hm with hm | hm | hm | hm | hm <;> rw [hm] at hd <;> revert hd <;> decide +kernel
      refine ⟨0, k, fun n => ?_, by omega⟩
      rw [lookup, hG1]
      simp only
      rw [if_neg hmc]
      simp only [if_true]
      have hp : parseCompat G (cs k i.1) = (i.1, k) := by
        simp only [parseCompat, hlist, (takeWhile_cs k _ h1).1, (takeWhile_cs k _ h1).2, String.ofList_toList, hG0, List.length_replicate]
        simp
      rw [hp]
      simp [hG0]

/-- A name without letters in front. -/
theorem lookup_plain {X : Exprs E} {G : Gates E} (hG : Included G) {i : String × ℕ × ℕ × OpType} (hi : i ∈ exported) (compat : Bool) (n : ℕ) :
    lookup X G compat i.1 n = some (.std 0 i.2.1 i.2.2.1 i.2.2.2, 0) := by
  obtain ⟨h1, h2, h3, h4, h5⟩ := exported_facts i hi
  have := cs_included hG hi 0
  rw [cs_zero] at this
  rw [lookup, this, stdGates, h4]
  rfl

/-- The gates of stdgates.inc. -/
theorem builtin_facts : ∀ i ∈ exported, ∀ k ∈ [1, 2], builtin i.2.2.2 k = true → stdTable.lookup (cs k i.1) = some (k, i.2) := by
  decide +kernel

theorem builtin_le {type : OpType} {k : ℕ} (h : builtin type k = true) : k ∈ [1, 2] := by
  unfold builtin at h
  split at h <;> simp_all

theorem lookup_builtin {X : Exprs E} {G : Gates E} (hG : Included G) {i : String × ℕ × ℕ × OpType} (hi : i ∈ exported) (compat : Bool)
    {k : ℕ} (h : builtin i.2.2.2 k = true) (n : ℕ) : lookup X G compat (cs k i.1) n = some (.std k i.2.1 i.2.2.1 i.2.2.2, 0) := by
  rw [lookup, cs_included hG hi, stdGates, builtin_facts i hi k (builtin_le h) h]
  rfl

/-! ### Meaning of what is exported -/

theorem half_half : Real.pi / 2 / 2 = Real.pi / 4 := by ring

theorem gate1_s : gate1 .p [Real.pi / 2] = gate1 .s [] := by
  simp [gate1, pMat]

theorem gate1_sdg : gate1 .p [-Real.pi / 2] = gate1 .sdg [] := by
  simp [gate1, pMat, neg_div]

theorem gate1_t : gate1 .p [Real.pi / 4] = gate1 .t [] := by
  simp [gate1, pMat, r2]

theorem gate1_tdg : gate1 .p [-Real.pi / 4] = gate1 .tdg [] := by
  simp [gate1, pMat, neg_div, r2]

theorem gate1_u2 (a b : ℝ) : gate1 .u [Real.pi / 2, a, b] = gate1 .u2 [a, b] := by
  simp [gate1, uMat, u2Mat, r2, half_half]

theorem gate1_v : gate1 .u [Real.pi / 2, -Real.pi / 2, Real.pi / 2] = gate1 .v [] := by
  simp [gate1, uMat, r2, half_half, neg_div]

theorem gate1_vdg : gate1 .u [Real.pi / 2, Real.pi / 2, -Real.pi / 2] = gate1 .vdg [] := by
  simp [gate1, uMat, r2, half_half, neg_div]

theorem denote_gate1 {ty ty' : OpType} (h : ty.isSingleQubitGate = true) (h' : ty'.isSingleQubitGate = true) {ps ps' : List ℝ}
    (e : gate1 ty ps = gate1 ty' ps') (C : Finset Ctrl) (ts : List ℕ) :
    (⟨ty, ps, C, ts⟩ : StdOp ℝ).denote = (⟨ty', ps', C, ts⟩ : StdOp ℝ).denote := by
  rw [StdOp.denote_single h, StdOp.denote_single h']
  simp only [e]

/-- The name and the parameters exported are those of a gate with the same matrix. -/
theorem gateName_means {X : Exprs E} (P : Printer X) {ρ : Vals} (hρ : ρ "pi" = some Real.pi) {type : OpType} {ps : List ℝ} {C : Finset Ctrl} {ts : List ℕ}
    {f : State → State} (hf : (⟨type, ps.map P.rnd, C, ts⟩ : StdOp ℝ).denote = some f) (hb : type ∉ [.barrier, .peres, .peresdg])
    (hg : type = .gphase → ts = []) (ctrl : Bool) :
    ∃ i ∈ exported, ∃ args vals, gateName P type ctrl ps = .ok (i.1, args) ∧ args.mapM (X.ev ρ) = some vals ∧ vals.length = i.2.2.1 ∧
      ts.length = i.2.1 ∧ (∀ n, builtin type n = true → builtin i.2.2.2 n = true) ∧
      ∀ C', (⟨i.2.2.2, vals, C', ts⟩ : StdOp ℝ).denote = (⟨type, ps.map P.rnd, C', ts⟩ : StdOp ℝ).denote := by
  have e2 : ∀ neg, X.ev ρ (P.piOver neg 2) = some ((if neg then -Real.pi else Real.pi) / 2) := fun neg => by simpa using P.ev_piOver ρ hρ neg 2
  have e4 : ∀ neg, X.ev ρ (P.piOver neg 4) = some ((if neg then -Real.pi else Real.pi) / 4) := fun neg => by simpa using P.ev_piOver ρ hρ neg 4
  have key : ∀ (i : String × ℕ × ℕ × OpType) (args : List E) (vals : List ℝ), i ∈ exported → gateName P type ctrl ps = .ok (i.1, args) →
      args.mapM (X.ev ρ) = some vals → vals.length = i.2.2.1 → ts.length = i.2.1 → (∀ n, builtin type n = true → builtin i.2.2.2 n = true) →
      (∀ C', (⟨i.2.2.2, vals, C', ts⟩ : StdOp ℝ).denote = (⟨type, ps.map P.rnd, C', ts⟩ : StdOp ℝ).denote) →
      ∃ i ∈ exported, ∃ args vals, gateName P type ctrl ps = .ok (i.1, args) ∧ args.mapM (X.ev ρ) = some vals ∧ vals.length = i.2.2.1 ∧
      ts.length = i.2.1 ∧ (∀ n, builtin type n = true → builtin i.2.2.2 n = true) ∧
      ∀ C', (⟨i.2.2.2, vals, C', ts⟩ : StdOp ℝ).denote = (⟨type, ps.map P.rnd, C', ts⟩ : StdOp ℝ).denote :=
    fun i args vals h1 h2 h3 h4 h5 h6 h7 => ⟨i, h1, args, vals, h2, h3, h4, h5, h6, h7⟩
  rcases StdOp.denote_cases hf with ⟨h, _⟩ | ⟨h, θ, h1, _⟩ | ⟨hs, q, M, h1, h2, _⟩ | ⟨ht, q0, q1, M, h1, h2, _⟩
  · simp only at h; subst h; simp at hb
  · simp only at h; subst h
    obtain rfl := hg rfl
    rcases ps with _ | ⟨a, r⟩
    · simp at h1
    · exact key ("gphase", 0, 1, .gphase) [P.num a] [P.rnd a] (by simp [exported]) rfl (by simp [P.ev_num]) rfl rfl (fun _ h => h) fun _ => rfl
  · simp only at h1 h2 hs
    subst h1
    have fixed : ∀ name, (name, 1, 0, type) ∈ exported → gateName P type ctrl ps = .ok (name, []) → (gate1 type [] = gate1 type (ps.map P.rnd)) →
        _ := fun name m e g => key (name, 1, 0, type) [] [] m e rfl rfl rfl (fun _ h => h) fun C' => denote_gate1 hs hs g C' [q]
    have phase : ∀ neg k (θ : ℝ), X.ev ρ (P.piOver neg k) = some θ → gateName P type ctrl ps = .ok ("p", [P.piOver neg k]) →
        gate1 .p [θ] = gate1 type (ps.map P.rnd) → (∀ n, builtin type n = false) → _ := fun neg k θ he e g hbu =>
      key ("p", 1, 1, .p) [P.piOver neg k] [θ] (by simp [exported]) e (by simp [he]) rfl rfl (fun n h => by rw [hbu] at h; cases h) fun C' =>
        denote_gate1 rfl hs g C' [q]
    have one : ∀ name a r, ps = a :: r → (name, 1, 1, type) ∈ exported → gateName P type ctrl ps = .ok (name, [P.num a]) →
        gate1 type [P.rnd a] = gate1 type (P.rnd a :: r.map P.rnd) → _ := fun name a r hp m e g =>
      key (name, 1, 1, type) [P.num a] [P.rnd a] m e (by simp [P.ev_num]) rfl rfl (fun _ h => h) fun C' =>
        denote_gate1 hs hs (by rw [g, hp]; rfl) C' [q]
    cases type <;> first | (cases hs; done) | skip
    case i => exact fixed "id" (by simp [exported]) rfl rfl
    case h => exact fixed "h" (by simp [exported]) rfl rfl
    case x => exact fixed "x" (by simp [exported]) rfl rfl
    case y => exact fixed "y" (by simp [exported]) rfl rfl
    case z => exact fixed "z" (by simp [exported]) rfl rfl
    case sx => exact fixed "sx" (by simp [exported]) rfl rfl
    case sxdg => exact fixed "sxdg" (by simp [exported]) rfl rfl
    case s =>
      cases ctrl
      · exact fixed "s" (by simp [exported]) rfl rfl
      · exact phase false 2 _ (e2 false) rfl gate1_s fun _ => rfl
    case sdg =>
      cases ctrl
      · exact fixed "sdg" (by simp [exported]) rfl rfl
      · exact phase true 2 _ (e2 true) rfl gate1_sdg fun _ => rfl
    case t =>
      cases ctrl
      · exact fixed "t" (by simp [exported]) rfl rfl
      · exact phase false 4 _ (e4 false) rfl gate1_t fun _ => rfl
    case tdg =>
      cases ctrl
      · exact fixed "tdg" (by simp [exported]) rfl rfl
      · exact phase true 4 _ (e4 true) rfl gate1_tdg fun _ => rfl
    case v =>
      exact key ("U", 1, 3, .u) _ [Real.pi / 2, -Real.pi / 2, Real.pi / 2] (by simp [exported]) rfl (by simp [e2]) rfl rfl
        (fun n h => by cases h) fun C' => denote_gate1 rfl rfl gate1_v C' [q]
    case vdg =>
      exact key ("U", 1, 3, .u) _ [Real.pi / 2, Real.pi / 2, -Real.pi / 2] (by simp [exported]) rfl (by simp [e2]) rfl rfl
        (fun n h => by cases h) fun C' => denote_gate1 rfl rfl gate1_vdg C' [q]
    case p =>
      rcases ps with _ | ⟨a, r⟩
      · simp [gate1] at h2
      · exact one "p" a r rfl (by simp [exported]) rfl rfl
    case rx =>
      rcases ps with _ | ⟨a, r⟩
      · simp [gate1] at h2
      · exact one "rx" a r rfl (by simp [exported]) rfl rfl
    case ry =>
      rcases ps with _ | ⟨a, r⟩
      · simp [gate1] at h2
      · exact one "ry" a r rfl (by simp [exported]) rfl rfl
    case rz =>
      rcases ps with _ | ⟨a, r⟩
      · simp [gate1] at h2
      · exact one "rz" a r rfl (by simp [exported]) rfl rfl
    case u2 =>
      rcases ps with _ | ⟨a, _ | ⟨b, r⟩⟩
      · simp [gate1] at h2
      · simp [gate1] at h2
      · exact key ("U", 1, 3, .u) _ [Real.pi / 2, P.rnd a, P.rnd b] (by simp [exported]) rfl (by simp [e2, P.ev_num]) rfl rfl
          (fun n h => by cases h) fun C' => denote_gate1 rfl rfl (gate1_u2 _ _) C' [q]
    case u =>
      rcases ps with _ | ⟨a, _ | ⟨b, _ | ⟨c, r⟩⟩⟩
      · simp [gate1] at h2
      · simp [gate1] at h2
      · simp [gate1] at h2
      · exact key ("U", 1, 3, .u) _ [P.rnd a, P.rnd b, P.rnd c] (by simp [exported]) rfl (by simp [P.ev_num]) rfl rfl
          (fun n h => by cases h) fun C' => denote_gate1 rfl rfl rfl C' [q]
  · simp only at h1 h2 ht
    subst h1
    have fixed : ∀ name, (name, 2, 0, type) ∈ exported → gateName P type ctrl ps = .ok (name, []) →
        (∀ C', (⟨type, [], C', [q0, q1]⟩ : StdOp ℝ).denote = (⟨type, ps.map P.rnd, C', [q0, q1]⟩ : StdOp ℝ).denote) →
        _ := fun name m e g => key (name, 2, 0, type) [] [] m e rfl rfl rfl (fun _ h => h) g
    have one : ∀ name a r, ps = a :: r → (name, 2, 1, type) ∈ exported → gateName P type ctrl ps = .ok (name, [P.num a]) →
        (∀ C', (⟨type, [P.rnd a], C', [q0, q1]⟩ : StdOp ℝ).denote = (⟨type, P.rnd a :: r.map P.rnd, C', [q0, q1]⟩ : StdOp ℝ).denote) → _ :=
      fun name a r hp m e g => key (name, 2, 1, type) [P.num a] [P.rnd a] m e (by simp [P.ev_num]) rfl rfl (fun _ h => h) fun C' => by
        rw [g, hp]; rfl
    have two : ∀ name a b r, ps = a :: b :: r → (name, 2, 2, type) ∈ exported → gateName P type ctrl ps = .ok (name, [P.num a, P.num b]) →
        (∀ C', (⟨type, [P.rnd a, P.rnd b], C', [q0, q1]⟩ : StdOp ℝ).denote =
          (⟨type, P.rnd a :: P.rnd b :: r.map P.rnd, C', [q0, q1]⟩ : StdOp ℝ).denote) → _ :=
      fun name a b r hp m e g => key (name, 2, 2, type) [P.num a, P.num b] [P.rnd a, P.rnd b] m e (by simp [P.ev_num]) rfl rfl (fun _ h => h)
        fun C' => by rw [g, hp]; rfl
    cases type <;> first | (cases ht; done) | skip
    case swap => exact fixed "swap" (by simp [exported]) rfl fun _ => rfl
    case iswap => exact fixed "iswap" (by simp [exported]) rfl fun _ => rfl
    case iswapdg => exact fixed "iswapdg" (by simp [exported]) rfl fun _ => rfl
    case dcx => exact fixed "dcx" (by simp [exported]) rfl fun _ => rfl
    case ecr => exact fixed "ecr" (by simp [exported]) rfl fun _ => rfl
    case peres => simp at hb
    case peresdg => simp at hb
    case rxx =>
      rcases ps with _ | ⟨a, r⟩
      · simp [gate2] at h2
      · exact one "rxx" a r rfl (by simp [exported]) rfl fun _ => rfl
    case ryy =>
      rcases ps with _ | ⟨a, r⟩
      · simp [gate2] at h2
      · exact one "ryy" a r rfl (by simp [exported]) rfl fun _ => rfl
    case rzz =>
      rcases ps with _ | ⟨a, r⟩
      · simp [gate2] at h2
      · exact one "rzz" a r rfl (by simp [exported]) rfl fun _ => rfl
    case rzx =>
      rcases ps with _ | ⟨a, r⟩
      · simp [gate2] at h2
      · exact one "rzx" a r rfl (by simp [exported]) rfl fun _ => rfl
    case xxminusyy =>
      rcases ps with _ | ⟨a, _ | ⟨b, r⟩⟩
      · simp [gate2] at h2
      · simp [gate2] at h2
      · exact two "xx_minus_yy" a b r rfl (by simp [exported]) rfl fun _ => rfl
    case xxplusyy =>
      rcases ps with _ | ⟨a, _ | ⟨b, r⟩⟩
      · simp [gate2] at h2
      · simp [gate2] at h2
      · exact two "xx_plus_yy" a b r rfl (by simp [exported]) rfl fun _ => rfl

/-! ### Importing what is exported -/

theorem dumpOperands_singles {regs : List Reg} (h : WF regs) : ∀ (qs : List ℕ), Covered regs qs →
    ∃ l, dumpOperands regs qs = .ok l ∧ Singles regs (l.map .op) qs := by
  intro qs
  induction qs with
  | nil => intro _; exact ⟨[], rfl, .nil⟩
  | cons q qs ih =>
    intro hc
    obtain ⟨o, e1, t1⟩ := elemAt_translate h (hc q (by simp))
    obtain ⟨l, e2, t2⟩ := ih fun i hi => hc i (by simp [hi])
    exact ⟨o :: l, by simp only [dumpOperands, e1, e2, Res.bind], .cons t1 t2⟩

/-- Importing one exported call. -/
theorem import_call {X : Exprs E} {G : Gates E} {compat : Bool} {n : ℕ} {regs : List Reg} (hr : WF regs) {ρ : Vals} {k : ℕ} {ms : List Mod}
    (hms : ∀ m ∈ ms, ∃ b n, m = .ctrl b n) {name : String} {args : List E} {vals : List ℝ} {c : List Ctrl} {ts : List ℕ}
    {nC nT nP j : ℕ} {type : OpType} (hl : ∀ m, lookup X G compat (cs k name) m = some (.std nC nT nP type, j))
    (hv : args.mapM (X.ev ρ) = some vals) (hvl : vals.length = nP) (hnd : (c.map Prod.fst ++ ts).Nodup)
    (hp : c.map Prod.snd = List.replicate (nC + j) true ++ polarities ms) (ht : ts.length = nT) (hc : Covered regs (c.map Prod.fst ++ ts)) :
    ∃ o, dumpCall regs k ms name args (c.map Prod.fst ++ ts) = .ok o ∧
      importOut X G compat (n + 1) regs ρ o = .ok (.std ⟨type, vals, c.toFinset, ts⟩) := by
  obtain ⟨l, e, hs⟩ := dumpOperands_singles hr _ hc
  refine ⟨.call ⟨cs k name, ms, args, l.map .op⟩, by simp only [dumpCall, e, Res.bind], ?_⟩
  rw [importOut, evalCall_ctrl hms (hl _) hv hvl hs hnd hp (by simp) ht]
  simp only [applyGate, invertIf, Bool.false_eq_true, if_false]
  have : (c.map Prod.fst).zip (c.map Prod.snd) = c := by
    rw [List.zip_map', show (fun x : Ctrl => (x.1, x.2)) = id from rfl, List.map_id]
  rw [this]

/-- A barrier. -/
theorem import_barrier {X : Exprs E} (P : Printer X) {G : Gates E} {compat : Bool} {n : ℕ} {regs : List Reg} (hr : WF regs) {ρ : Vals} {k : ℕ}
    {ms : List Mod} {ps : List ℝ} {ts : List ℕ} (hc : Covered regs ts) :
    ∃ l, dumpGateType P regs k ms .barrier ps [] ts = .ok l ∧
      ∃ qs, importOuts X G compat n regs ρ l = .ok [.std ⟨.barrier, [], ∅, qs⟩] := by
  rcases List.eq_nil_or_concat' ts with rfl | ⟨_, _, rfl⟩
  · exact ⟨[.barrier []], rfl, [], rfl⟩
  · rename_i l b
    obtain ⟨i, j, h1, h2, h3, h4⟩ := ends (l := l ++ [b]) (by simp)
    obtain ⟨r, hr1, hr2⟩ := hc i h3
    obtain ⟨r', hr1', hr2'⟩ := hc j h4
    obtain ⟨ol, e1, e2⟩ := dumpOperands_roundtrip hr _ hc
    have hw := isWhole_spec hr hr1 hr1' hr2 hr2'
    by_cases hd : r = r' ∧ i = r.start ∧ j = r.last
    · refine ⟨[.barrier [.reg r.name]], ?_, List.range' r.start r.size, ?_⟩
      · rw [decide_eq_true hd] at hw
        simp [dumpGateType, dump, h1, h2, hw, Res.bind, regAt_eq hr hr1 hr2]
      · simp [importOuts, mapRes, importOut, translateAll, translate_reg hr hr1, Res.bind]
    · refine ⟨[.barrier ol], ?_, l ++ [b], ?_⟩
      · rw [decide_eq_false hd] at hw
        simp [dumpGateType, dump, h1, h2, hw, Res.bind, e1]
      · simp [importOuts, mapRes, importOut, e2, Res.bind]

/-! ### X gates around a controlled gate -/

/-- The bits of some qubits are flipped. -/
def flips (ns : List ℕ) (x : Bits) : Bits := fun i => if i ∈ ns then !x i else x i

theorem flips_flips (ns : List ℕ) (x : Bits) : flips ns (flips ns x) = x := by
  funext i
  simp only [flips]
  split_ifs <;> simp

theorem app1_x (q : ℕ) (ψ : State) : app1 (mat1 0 1 1 0) q ψ = fun x => ψ (flips [q] x) := by
  funext x
  have : ∀ b, x q = b → update x q (!b) = flips [q] x := by
    rintro b rfl
    funext i
    by_cases h : i = q
    · subst h; simp [flips]
    · simp [flips, h]
  simp only [app1, Fintype.univ_bool, Finset.sum_insert (by simp : true ∉ ({false} : Finset Bool)), Finset.sum_singleton]
  cases hb : x q <;> simp [mat1, ← this _ hb]

/-- The X gates imported. -/
def xOps (c : List Ctrl) : List (StdOp ℝ) := (c.filter fun c => !c.2).map fun c => ⟨.x, [], ∅, [c.1]⟩

theorem denote_xOps {c : List Ctrl} (hnd : (c.map Prod.fst).Nodup) :
    denoteSeq (xOps c) = some fun ψ x => ψ (flips ((c.filter fun c => !c.2).map Prod.fst) x) := by
  induction c with
  | nil =>
    simp only [xOps, List.filter_nil, List.map_nil, denoteSeq, Option.some.injEq]
    rfl
  | cons a l ih =>
    obtain ⟨q, b⟩ := a
    rw [List.map_cons, List.nodup_cons] at hnd
    cases b with
    | true => simpa [xOps] using ih hnd.2
    | false =>
      have h1 : (⟨.x, [], ∅, [q]⟩ : StdOp ℝ).denote = some fun ψ x => ψ (flips [q] x) := by
        have : (⟨.x, [], ∅, [q]⟩ : StdOp ℝ).denote = some (ctl ∅ (app1 (mat1 0 1 1 0) q)) := rfl
        rw [this, ctl_empty]
        congr 1
        funext ψ
        exact app1_x q ψ
      have := denoteSeq_cons_of h1 (ih hnd.2)
      simp only [xOps, List.filter_cons, Bool.not_false, if_true, List.map_cons] at this ⊢
      rw [this]
      congr 1
      funext ψ x
      congr 1
      funext i
      have hq : q ∉ (l.filter fun c => !c.2).map Prod.fst := fun hm => hnd.1 (by
        simp only [List.mem_map, List.mem_filter] at hm ⊢
        obtain ⟨c, hc, rfl⟩ := hm
        exact ⟨c, hc.1, rfl⟩)
      simp only [flips, List.mem_cons]
      by_cases h : i = q
      · subst h; simp [hq]
      · simp [h]

/-- The controls made positive. -/
def positive (c : List Ctrl) : List Ctrl := c.map fun c => (c.1, true)

theorem sat_positive {c : List Ctrl} (hnd : (c.map Prod.fst).Nodup) (x : Bits) :
    Sat (positive c).toFinset (flips ((c.filter fun c => !c.2).map Prod.fst) x) ↔ Sat c.toFinset x := by
  have key : ∀ a ∈ c, (flips ((c.filter fun c => !c.2).map Prod.fst) x a.1 = true ↔ x a.1 = a.2) := by
    rintro ⟨q, b⟩ ha
    have : q ∈ (c.filter fun c => !c.2).map Prod.fst ↔ b = false := by
      constructor
      · intro hm
        obtain ⟨⟨q', b'⟩, h1, h2⟩ := List.mem_map.1 hm
        obtain rfl : q' = q := h2
        rw [List.mem_filter] at h1
        have := List.inj_on_of_nodup_map hnd h1.1 ha rfl
        cases this
        simpa using h1.2
      · rintro rfl
        exact List.mem_map.2 ⟨(q, false), List.mem_filter.2 ⟨ha, rfl⟩, rfl⟩
    simp only [flips, this]
    cases b <;> simp
  unfold Sat positive
  simp only [List.mem_toFinset, List.mem_map, forall_exists_index, and_imp, forall_apply_eq_imp_iff₂]
  exact forall₂_congr key

/-- The gate does not care about the bits of other qubits being flipped. -/
theorem flips_app1 {ns : List ℕ} {t : ℕ} (ht : t ∉ ns) (M : Mat1) (ψ : State) (x : Bits) :
    app1 M t (fun y => ψ (flips ns y)) x = app1 M t ψ (flips ns x) := by
  have h1 : flips ns x t = x t := by simp [flips, ht]
  have h2 : ∀ b, flips ns (update x t b) = update (flips ns x) t b := by
    intro b
    funext i
    by_cases h : i = t
    · subst h; simp [flips, ht]
    · simp [flips, h]
  simp only [app1, h1, h2]

theorem flips_app2 {ns : List ℕ} {t0 t1 : ℕ} (h0 : t0 ∉ ns) (h1 : t1 ∉ ns) (M : Mat2) (ψ : State) (x : Bits) :
    app2 M t0 t1 (fun y => ψ (flips ns y)) x = app2 M t0 t1 ψ (flips ns x) := by
  have e : ∀ {t : ℕ}, t ∉ ns → flips ns x t = x t := fun ht => by simp [flips, ht]
  have h2 : ∀ {t : ℕ}, t ∉ ns → ∀ (y : Bits) (b : Bool), flips ns (update y t b) = update (flips ns y) t b := by
    intro t ht y b
    funext i
    by_cases h : i = t
    · subst h; simp [flips, ht]
    · simp [flips, h]
  simp only [app2, e h0, e h1, h2 h0, h2 h1]

/-- With X gates before and after, positive controls act as the controls did. -/
theorem denote_conjugated {type : OpType} {ps : List ℝ} {c : List Ctrl} {ts : List ℕ} (hnd : (c.map Prod.fst ++ ts).Nodup) {f : State → State}
    (hf : (⟨type, ps, c.toFinset, ts⟩ : StdOp ℝ).denote = some f) (hb : type ≠ .barrier) :
    denoteSeq (xOps c ++ ⟨type, ps, (positive c).toFinset, ts⟩ :: xOps c) = some f := by
  have hc : (c.map Prod.fst).Nodup := (List.nodup_append.1 hnd).1
  set ns := (c.filter fun c => !c.2).map Prod.fst with hns
  have hts : ∀ t ∈ ts, t ∉ ns := by
    intro t ht hm
    refine (List.nodup_append.1 hnd).2.2 t ?_ t ht rfl
    rw [hns] at hm
    simp only [List.mem_map, List.mem_filter] at hm ⊢
    obtain ⟨c, hc, rfl⟩ := hm
    exact ⟨c, hc.1, rfl⟩
  have hx := denote_xOps hc
  rw [← hns] at hx
  have finish : ∀ A : State → State, (∀ ψ x, A (fun y => ψ (flips ns y)) x = A ψ (flips ns x)) → f = ctl c.toFinset A →
      (⟨type, ps, (positive c).toFinset, ts⟩ : StdOp ℝ).denote = some (ctl (positive c).toFinset A) →
      denoteSeq (xOps c ++ ⟨type, ps, (positive c).toFinset, ts⟩ :: xOps c) = some f := by
    intro A hA he hd
    rw [denoteSeq_append hx (denoteSeq_cons_of hd hx), he]
    congr 1
    funext ψ x
    have hs := sat_positive hc x
    rw [← hns] at hs
    simp only [ctl, hs, hA, flips_flips]
  rcases StdOp.denote_cases hf with ⟨h, _⟩ | ⟨h, θ, h1, he⟩ | ⟨hs, q, M, h1, h2, he⟩ | ⟨ht, q0, q1, M, h1, h2, he⟩
  · exact absurd h hb
  · refine finish _ (fun ψ x => rfl) he ?_
    have := StdOp.denote_gphase (o := ⟨type, ps, (positive c).toFinset, ts⟩) h
    simp only at h1
    rw [this, h1]
    rfl
  · simp only at h1 h2 hs he
    refine finish _ (fun ψ x => flips_app1 (hts q (by rw [h1]; simp)) M ψ x) he ?_
    exact StdOp.denote_single_of hs h1 h2
  · simp only at h1 h2 ht he
    refine finish _ (fun ψ x => flips_app2 (hts q0 (by rw [h1]; simp)) (hts q1 (by rw [h1]; simp)) M ψ x) he ?_
    exact StdOp.denote_two_of ht h1 h2

theorem import_x {X : Exprs E} {G : Gates E} (hG : Included G) {n : ℕ} {regs : List Reg} (hr : WF regs) {ρ : Vals} (c : List Ctrl)
    (hc : Covered regs (c.map Prod.fst)) :
    ∃ l, dumpX (E := E) regs c = .ok l ∧ importOuts X G true (n + 1) regs ρ l = .ok ((xOps c).map .std) := by
  induction c with
  | nil => exact ⟨[], rfl, rfl⟩
  | cons a c ih =>
    obtain ⟨q, b⟩ := a
    obtain ⟨l, e1, e2⟩ := ih fun i hi => hc i (by simp [hi])
    cases b with
    | true => exact ⟨l, by simp [dumpX, e1], by simpa [xOps] using e2⟩
    | false =>
      obtain ⟨o, h1, h2⟩ := import_call (X := X) (G := G) (compat := true) (n := n) hr (ρ := ρ) (k := 0) (ms := []) (by simp) (name := "x") (args := [])
        (vals := []) (c := []) (ts := [q]) (fun m => by
          rw [cs_zero]
          exact lookup_plain hG (i := ("x", 1, 0, .x)) (by simp [exported]) true m) rfl rfl (by simp) (by simp [polarities]) rfl
        (fun i hi => hc i (by simp at hi; simp [hi]))
      refine ⟨o :: l, ?_, ?_⟩
      · simp only [List.map_nil, List.nil_append] at h1
        simp [dumpX, h1, e1, Res.bind]
      · unfold importOuts at e2 ⊢
        simp [mapRes, h2, e2, Res.bind, xOps]

theorem mapRes_append {α β : Type} {f : α → Res β} {l l' : List α} {r r' : List β} (h : mapRes f l = .ok r) (h' : mapRes f l' = .ok r') :
    mapRes f (l ++ l') = .ok (r ++ r') := by
  induction l generalizing r with
  | nil => simp only [mapRes, Res.ok.injEq] at h; subst h; simpa using h'
  | cons a l ih =>
    simp only [mapRes] at h
    obtain ⟨b, h1, h2⟩ := Res.bind_ok h
    obtain ⟨t, h3, h4⟩ := Res.bind_ok h2
    cases h4
    simp only [List.cons_append, mapRes, h1, ih h3, Res.bind]

theorem leavesL_std (l : List (StdOp ℝ)) : UOp.leavesL (l.map .std) = l := by
  induction l with
  | nil => rfl
  | cons a l ih => simp [UOp.leavesL, List.flatMap_cons] at ih ⊢; exact ih

theorem dumpGateType_plain {X : Exprs E} (P : Printer X) (regs : List Reg) (k : ℕ) (ms : List Mod) {type : OpType}
    (h : type ∉ [.barrier, .peres, .peresdg]) (ps : List ℝ) (cqs ts : List ℕ) :
    dumpGateType P regs k ms type ps cqs ts = (gateName P type (!cqs.isEmpty) ps).bind fun g =>
      (dumpCall regs k ms g.1 g.2 (cqs ++ ts)).bind fun a => .ok [a] := by
  cases type <;> first | rfl | simp at h

theorem denoteSeq_one {o : StdOp ℝ} {f : State → State} (h : o.denote = some f) : denoteSeq [o] = some f := by
  simp [denoteSeq, h]

theorem sortCtrls_empty : sortCtrls ∅ = [] := by simp [sortCtrls]

/-! ### Peres gates -/

theorem cs_cs (k : ℕ) (name : String) : cs k (cs 1 name) = cs (k + 1) name := by
  simp [cs, List.replicate_succ']

/-- The X on the second target, then the controlled X, and the reverse, on exchanged targets. -/
theorem peres_exchanged {t0 t1 : ℕ} (hne : t0 ≠ t1) (ψ : State) :
    app1 (mat1 0 1 1 0) t1 (ctl {(t1, true)} (app1 (mat1 0 1 1 0) t0) ψ) =
      app2 (mat2 0 0 0 1  0 0 1 0  1 0 0 0  0 1 0 0) t1 t0 ψ := by
  funext x
  rw [app1_x]
  simp only [ctl, app1_x, Sat, Finset.mem_singleton, forall_eq, app2, Fintype.sum_prod_type, Fintype.univ_bool,
    Finset.sum_insert (by simp : true ∉ ({false} : Finset Bool)), Finset.sum_singleton]
  have hu : ∀ a b, update (update x t1 a) t0 b = fun i => if i = t0 then b else if i = t1 then a else x i := by
    intro a b
    funext i
    by_cases h : i = t0
    · subst h; simp
    · by_cases h' : i = t1
      · subst h'; simp [h]
      · simp [h, h']
  have h1 : flips [t1] x = fun i => if i = t0 then x t0 else if i = t1 then !x t1 else x i := by
    funext i
    by_cases h : i = t0
    · subst h; simp [flips, hne]
    · by_cases h' : i = t1
      · subst h'; simp [h, flips]
      · simp [h, h', flips]
  have h2 : flips [t0] (flips [t1] x) = fun i => if i = t0 then !x t0 else if i = t1 then !x t1 else x i := by
    funext i
    by_cases h : i = t0
    · subst h; simp [flips, hne]
    · by_cases h' : i = t1
      · subst h'; simp [h, flips]
      · simp [h, h', flips]
  have h3 : flips [t1] x t1 = !x t1 := by simp [flips]
  rw [h3]
  simp only [hu, h2]
  simp only [h1]
  cases hx0 : x t0 <;> cases hx1 : x t1 <;> simp [mat2]

theorem peresdg_exchanged {t0 t1 : ℕ} (hne : t0 ≠ t1) (ψ : State) :
    ctl {(t1, true)} (app1 (mat1 0 1 1 0) t0) (app1 (mat1 0 1 1 0) t1 ψ) =
      app2 (mat2 0 0 1 0  0 0 0 1  0 1 0 0  1 0 0 0) t1 t0 ψ := by
  funext x
  rw [app1_x]
  simp only [ctl, app1_x, Sat, Finset.mem_singleton, forall_eq, app2, Fintype.sum_prod_type, Fintype.univ_bool,
    Finset.sum_insert (by simp : true ∉ ({false} : Finset Bool)), Finset.sum_singleton]
  have hu : ∀ a b, update (update x t1 a) t0 b = fun i => if i = t0 then b else if i = t1 then a else x i := by
    intro a b
    funext i
    by_cases h : i = t0
    · subst h; simp
    · by_cases h' : i = t1
      · subst h'; simp [h]
      · simp [h, h']
  have h1 : flips [t1] x = fun i => if i = t0 then x t0 else if i = t1 then !x t1 else x i := by
    funext i
    by_cases h : i = t0
    · subst h; simp [flips, hne]
    · by_cases h' : i = t1
      · subst h'; simp [h, flips]
      · simp [h, h', flips]
  have h2 : flips [t1] (flips [t0] x) = fun i => if i = t0 then !x t0 else if i = t1 then !x t1 else x i := by
    funext i
    by_cases h : i = t0
    · subst h; simp [flips, hne]
    · by_cases h' : i = t1
      · subst h'; simp [h, flips]
      · simp [h, h', flips]
  simp only [hu, h2]
  simp only [h1]
  cases hx0 : x t0 <;> cases hx1 : x t1 <;> simp [mat2]

end MQT.QASM.GateCall
