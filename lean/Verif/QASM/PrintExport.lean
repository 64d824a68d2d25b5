/-
What is exported for an operation (Verif/QASM/Dump.lean, Verif/QASM/DumpGate.lean) can be read (Verif/QASM/Print.lean).
-/
import Verif.QASM.Print

set_option autoImplicit false

namespace MQT.QASM.Print

open MQT.IR
open MQT.QASM.GateCall
open MQT.QASM.Program (E)
open MQT.QASM.Scanner

theorem bind_ok {α β : Type} {r : Res α} {f : α → Res β} {b : β} (h : r.bind f = .ok b) : ∃ a, r = .ok a ∧ f a = .ok b := by
  cases r with
  | ok a => exact ⟨a, rfl, h⟩
  | ub => cases h
  | throw => cases h

theorem regAt_mem {regs : List Reg} {i : ℕ} {r : Reg} (h : regAt regs i = .ok r) : r ∈ regs ∧ r.contains i = true := by
  unfold regAt at h
  split at h
  · next r' e =>
    cases h
    exact ⟨List.mem_of_find?_eq_some e, by simpa using List.find?_some e⟩
  · cases h

theorem elemAt_operand {regs : List Reg} (hr : ∀ r ∈ regs, IsReg r) {i : ℕ} {o : Operand} (h : elemAt regs i = .ok o) : IsOperand o := by
  obtain ⟨r, h1, h2⟩ := bind_ok h
  obtain ⟨hm, hc⟩ := regAt_mem h1
  cases h2
  have := (hr r hm).2
  simp only [Reg.contains, decide_eq_true_eq] at hc
  exact ⟨(hr r hm).1, by omega⟩

theorem regAt_operand {regs : List Reg} (hr : ∀ r ∈ regs, IsReg r) {i : ℕ} {r : Reg} (h : regAt regs i = .ok r) : IsOperand (.reg r.name) :=
  (hr r (regAt_mem h).1).1

theorem dumpOperands_operand {regs : List Reg} (hr : ∀ r ∈ regs, IsReg r) : ∀ (qs : List ℕ) (l : List Operand), dumpOperands regs qs = .ok l →
    l.length = qs.length ∧ ∀ o ∈ l, IsOperand o := by
  intro qs
  induction qs with
  | nil =>
    intro l h
    cases h
    exact ⟨rfl, by simp⟩
  | cons q qs ih =>
    intro l h
    obtain ⟨o, h1, h⟩ := bind_ok h
    obtain ⟨l', h2, h⟩ := bind_ok h
    cases h
    obtain ⟨e, h3⟩ := ih l' h2
    refine ⟨by simp [e], fun o' ho' => ?_⟩
    rcases List.mem_cons.1 ho' with rfl | ho'
    · exact elemAt_operand hr h1
    · exact h3 o' ho'

theorem dumpMeasures_readable {qregs cregs : List Reg} (hq : ∀ r ∈ qregs, IsReg r) (hc : ∀ r ∈ cregs, IsReg r) (qasm3 : Bool) :
    ∀ (ts bs : List ℕ) (l : List Stmt), dumpMeasures qregs cregs qasm3 ts bs = .ok l → ∀ s ∈ l, IsStmt s := by
  intro ts
  induction ts with
  | nil =>
    intro bs l h
    cases h
    simp
  | cons q ts ih =>
    intro bs l h
    cases bs with
    | nil => cases h
    | cons b bs =>
      obtain ⟨sq, h1, h⟩ := bind_ok h
      obtain ⟨sb, h2, h⟩ := bind_ok h
      obtain ⟨r, h3, h⟩ := bind_ok h
      cases h
      intro s hs
      rcases List.mem_cons.1 hs with rfl | hs
      · exact ⟨elemAt_operand hc h2, elemAt_operand hq h1⟩
      · exact ih _ r h3 s hs

theorem dumpResets_readable {qregs : List Reg} (hq : ∀ r ∈ qregs, IsReg r) : ∀ (ts : List ℕ) (l : List Stmt), dumpResets qregs ts = .ok l →
    ∀ s ∈ l, IsStmt s := by
  intro ts
  induction ts with
  | nil =>
    intro l h
    cases h
    simp
  | cons q ts ih =>
    intro l h
    obtain ⟨sq, h1, h⟩ := bind_ok h
    obtain ⟨r, h3, h⟩ := bind_ok h
    cases h
    intro s hs
    rcases List.mem_cons.1 hs with rfl | hs
    · exact elemAt_operand hq h1
    · exact ih r h3 s hs

theorem dump_readable {qregs cregs : List Reg} (hq : ∀ r ∈ qregs, IsReg r) (hc : ∀ r ∈ cregs, IsReg r) {qasm3 : Bool} {o : NOp} {l : List Stmt}
    (h : dump qregs cregs qasm3 o = .ok l) : ∀ s ∈ l, IsStmt s := by
  cases o with
  | measure ts bs =>
    rw [dump] at h
    split at h
    · obtain ⟨w, -, h⟩ := bind_ok h
      split at h
      · obtain ⟨w', -, h⟩ := bind_ok h
        split at h
        · obtain ⟨rb, h1, h⟩ := bind_ok h
          obtain ⟨rq, h2, h⟩ := bind_ok h
          cases h
          simp only [List.mem_singleton, forall_eq]
          exact ⟨regAt_operand hc h1, regAt_operand hq h2⟩
        · exact dumpMeasures_readable hq hc _ _ _ _ h
      · exact dumpMeasures_readable hq hc _ _ _ _ h
    · cases h
  | reset ts =>
    rw [dump] at h
    split at h
    · obtain ⟨w, -, h⟩ := bind_ok h
      split at h
      · obtain ⟨rq, h2, h⟩ := bind_ok h
        cases h
        simp only [List.mem_singleton, forall_eq]
        exact regAt_operand hq h2
      · exact dumpResets_readable hq _ _ h
    · cases h
  | barrier ts =>
    rw [dump] at h
    split at h
    · obtain ⟨w, -, h⟩ := bind_ok h
      split at h
      · obtain ⟨rq, h2, h⟩ := bind_ok h
        cases h
        simp only [List.mem_singleton, forall_eq]
        intro q hm
        rw [List.mem_singleton.1 hm]
        exact regAt_operand hq h2
      · obtain ⟨l', h2, h⟩ := bind_ok h
        cases h
        simp only [List.mem_singleton, forall_eq]
        exact (dumpOperands_operand hq _ _ h2).2
    · cases h
      simp [IsStmt]

/-! ### Gates -/

/-- The names of the gates exported. -/
def names : List String :=
  ["gphase", "id", "h", "x", "y", "z", "s", "sdg", "t", "tdg", "p", "U", "sx", "sxdg", "rx", "ry", "rz", "dcx", "ecr", "rxx", "ryy", "rzz", "rzx",
   "xx_minus_yy", "xx_plus_yy", "swap", "iswap", "iswapdg", "move", "cx"]

theorem names_facts : ∀ s ∈ names, s.toList ≠ [] ∧ isFirstId (ch s.toList) = true ∧ (∀ c ∈ s.toList, isId c = true) ∧
    (s ≠ "gphase" → s.toList ∉ keywords) ∧ 'c' :: s.toList ∉ keywords := by
  decide +kernel

theorem keywords_cc : ∀ w ∈ keywords, w.take 2 ≠ ['c', 'c'] := by decide +kernel

theorem cs_name {s : String} (h : s ∈ names) (k : ℕ) : IsName (cs k s) ∨ cs k s = "gphase" := by
  obtain ⟨h1, h2, h3, h4, h5⟩ := names_facts s h
  have hl : (cs k s).toList = List.replicate k 'c' ++ s.toList := by simp [cs]
  rcases k with _ | _ | k
  · by_cases hg : s = "gphase"
    · exact .inr (by rw [hg, cs_zero])
    · obtain ⟨c, w, e⟩ := List.exists_cons_of_ne_nil h1
      refine .inl ⟨c, w, by rw [hl, e]; rfl, by rw [e] at h2; exact h2, fun a ha => h3 a (by rw [e]; exact List.mem_cons_of_mem _ ha), ?_⟩
      rw [← e]
      exact h4 hg
  · exact .inl ⟨'c', s.toList, hl, by decide, h3, h5⟩
  · refine .inl ⟨'c', 'c' :: (List.replicate k 'c' ++ s.toList), by rw [hl]; rfl, by decide, ?_, fun hk => keywords_cc _ hk rfl⟩
    intro a ha
    rcases List.mem_cons.1 ha with rfl | ha
    · decide
    · rcases List.mem_append.1 ha with ha | ha
      · rw [List.eq_of_mem_replicate ha]; decide
      · exact h3 a ha

/-- The numbers are printed as the parser can read them. -/
def Prints {X : Exprs E} (P : Printer X) : Prop := (∀ v, IsArgument (P.num v)) ∧ P.piOver = piOver

theorem gateName_readable {X : Exprs E} {P : Printer X} (hP : Prints P) {type : OpType} {ctrl : Bool} {ps : List ℝ} {g : String × List E}
    (h : gateName P type ctrl ps = .ok g) : (g.1 = "" ∨ g.1 ∈ names) ∧ (∀ e ∈ g.2, IsArgument e) := by
  have hp : ∀ neg k, k < 2 ^ 63 → IsArgument (P.piOver neg k) := fun neg k hk => .inr ⟨neg, k, hk, by rw [hP.2]⟩
  have h2 := fun neg => hp neg 2 (by norm_num)
  have h4 := fun neg => hp neg 4 (by norm_num)
  unfold gateName at h
  simp only at h
  split at h <;> (try split at h) <;> first
    | (cases h; done)
    | (cases h
       refine ⟨by simp [names], ?_⟩
       simp [hP.1, h2, h4])

theorem ctrlMods_readable (cur : Bool) (count : ℕ) (l : List Bool) (hc : 1 ≤ count ∨ l.head? = some cur) (hl : count + l.length < 2 ^ 63) :
    ∀ m ∈ ctrlMods cur count l, IsMod m := by
  induction l generalizing cur count with
  | nil =>
    simp only [ctrlMods, List.mem_singleton, forall_eq]
    simp at hc hl
    exact ⟨hc, hl⟩
  | cons b l ih =>
    simp only [List.length_cons] at hl
    unfold ctrlMods
    split_ifs with hb
    · exact ih _ _ (.inl (by omega)) (by omega)
    · intro m hm
      rcases List.mem_cons.1 hm with rfl | hm
      · refine ⟨?_, by omega⟩
        rcases hc with hc | hc
        · exact hc
        · simp at hc
          exact absurd hc hb
      · exact ih _ _ (.inl le_rfl) (by omega) m hm

theorem dumpControls_readable (type : OpType) (pols : List Bool) (h : pols.length < 2 ^ 63) : ∀ m ∈ (dumpControls type pols).2, IsMod m := by
  unfold dumpControls
  cases pols with
  | nil => simp
  | cons b l =>
    simp only
    split_ifs
    · simp
    · exact ctrlMods_readable b 0 (b :: l) (.inr rfl) (by simpa using h)

theorem dumpCall_readable {regs : List Reg} (hr : ∀ r ∈ regs, IsReg r) {k : ℕ} {ms : List Mod} (hm : ∀ m ∈ ms, IsMod m) {name : String}
    (hn : name ∈ names) {args : List E} (ha : ∀ e ∈ args, IsArgument e) {qs : List ℕ} (hq : qs ≠ [] ∨ name = "gphase" ∧ k = 0) {o : GateCall.Out E}
    (h : dumpCall regs k ms name args qs = .ok o) : IsOut o := by
  obtain ⟨l, h1, h⟩ := bind_ok h
  cases h
  obtain ⟨hlen, hop⟩ := dumpOperands_operand hr _ _ h1
  refine ⟨?_, hm, ha, ?_⟩
  · rcases hq with hq | ⟨rfl, rfl⟩
    · rcases cs_name hn k with h | h
      · refine .inl ⟨h, ?_⟩
        intro e
        have e := congrArg List.length e
        simp only [List.length_map, hlen, List.length_nil, List.length_eq_zero_iff] at e
        exact hq e
      · exact .inr h
    · exact .inr (cs_zero _)
  · intro o ho
    obtain ⟨o', ho', rfl⟩ := List.mem_map.1 ho
    exact hop o' ho'

/-- The types that have a name in OpenQASM. -/
def named : List OpType :=
  [.gphase, .i, .h, .x, .y, .z, .s, .sdg, .t, .tdg, .v, .vdg, .u, .u2, .p, .sx, .sxdg, .rx, .ry, .rz, .dcx, .ecr, .rxx, .ryy, .rzz, .rzx,
   .xxminusyy, .xxplusyy, .swap, .iswap, .iswapdg, .move, .barrier, .peres, .peresdg]

theorem gateName_named {X : Exprs E} {P : Printer X} {type : OpType} (ht : type ∈ named) (hb : type ∉ [.barrier, .peres, .peresdg]) {ctrl : Bool}
    {ps : List ℝ} {g : String × List E} (h : gateName P type ctrl ps = .ok g) : g.1 ≠ "" := by
  cases type <;> first
    | (exfalso; revert ht; decide)
    | (exfalso; revert hb; decide)
    | (simp only [gateName] at h
       first
         | (cases h; simp)
         | (split at h
            · cases h; simp
            · cases h <;> simp))

theorem dumpGateType_readable {X : Exprs E} {P : Printer X} (hP : Prints P) {regs : List Reg} (hr : ∀ r ∈ regs, IsReg r) {k : ℕ} {ms : List Mod}
    (hm : ∀ m ∈ ms, IsMod m) {type : OpType} (ht : type ∈ named) {ps : List ℝ} {cqs ts : List ℕ} (hq : cqs ++ ts ≠ [] ∨ type = .gphase ∧ k = 0)
    {l : List (GateCall.Out E)} (h : dumpGateType P regs k ms type ps cqs ts = .ok l) : ∀ o ∈ l, IsOut o := by
  have two : ∀ (a b : String) (qa qb : List ℕ), a ∈ names → b ∈ names → qa ≠ [] → qb ≠ [] → ∀ l, ((dumpCall (E := E) regs k ms a [] qa).bind fun x =>
      (dumpCall regs k ms b [] qb).bind fun y => .ok [x, y]) = .ok l → ∀ o ∈ l, IsOut o := by
    intro a b qa qb ha hb h1 h2 l h
    obtain ⟨x, e1, h⟩ := bind_ok h
    obtain ⟨y, e2, h⟩ := bind_ok h
    cases h
    simp only [List.mem_cons, List.not_mem_nil, or_false]
    rintro o (rfl | rfl)
    · exact dumpCall_readable hr hm ha (by simp) (.inl h1) e1
    · exact dumpCall_readable hr hm hb (by simp) (.inl h2) e2
  unfold dumpGateType at h
  split at h
  · split_ifs at h
    obtain ⟨l', h1, h⟩ := bind_ok h
    cases h
    have := dump_readable (cregs := []) hr (by simp) h1
    intro o ho
    obtain ⟨s, hs, e⟩ := List.mem_filterMap.1 ho
    have hs := this s hs
    cases s with
    | barrier qs => cases e; exact hs
    | measure _ _ => cases e
    | reset _ => cases e
  · split at h
    · exact two "cx" "x" _ _ (by simp [names]) (by simp [names]) (by simp) (by simp) l h
    · cases h
  · split at h
    · exact two "x" "cx" _ _ (by simp [names]) (by simp [names]) (by simp) (by simp) l h
    · cases h
  · next hb hp hp' =>
    obtain ⟨g, h1, h⟩ := bind_ok h
    obtain ⟨a, h2, h⟩ := bind_ok h
    cases h
    simp only [List.mem_singleton, forall_eq]
    obtain ⟨hn, ha⟩ := gateName_readable hP h1
    have hne : g.1 ≠ "" := gateName_named ht (by simpa using ⟨hb, hp, hp'⟩) h1
    refine dumpCall_readable hr hm (hn.resolve_left hne) ha (hq.imp id fun h => ⟨?_, h.2⟩) h2
    rw [h.1] at h1
    unfold gateName at h1
    simp only at h1
    split at h1
    · cases h1; rfl
    · cases h1

theorem dumpX_readable {regs : List Reg} (hr : ∀ r ∈ regs, IsReg r) : ∀ (c : List Ctrl) (l : List (GateCall.Out E)), dumpX regs c = .ok l → ∀ o ∈ l, IsOut o := by
  intro c
  induction c with
  | nil =>
    intro l h
    cases h
    simp
  | cons p c ih =>
    intro l h
    obtain ⟨q, pos⟩ := p
    unfold dumpX at h
    split at h
    · exact ih l h
    · obtain ⟨a, h1, h⟩ := bind_ok h
      obtain ⟨r, h2, h⟩ := bind_ok h
      cases h
      intro o ho
      rcases List.mem_cons.1 ho with rfl | ho
      · exact dumpCall_readable hr (by simp) (by simp [names]) (by simp) (.inl (by simp)) h1
      · exact ih r h2 o ho

end MQT.QASM.Print
