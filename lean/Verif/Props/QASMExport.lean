/-
Properties of the export of standard operations to OpenQASM (C96).
-/
import Verif.QASM.DumpGate

set_option autoImplicit false

namespace MQT.QASM.GateCall

open MQT.IR

variable {E : Type}

/-- What is required of an operation: distinct qubits that belong to registers, no controls on a barrier, no targets for a
global phase. -/
structure Exportable (regs : List Reg) (o : StdOp ℝ) : Prop where
  wf : o.WFB
  distinct : Distinct o.controls
  targets : Covered regs o.targets
  controls : Covered regs ((sortCtrls o.controls).map Prod.fst)
  barrier : o.type = .barrier → o.controls = ∅
  gphase : o.type = .gphase → o.targets = []

theorem Exportable.nodup {regs : List Reg} {o : StdOp ℝ} (h : Exportable regs o) (hb : o.type ≠ .barrier) :
    ((sortCtrls o.controls).map Prod.fst ++ o.targets).Nodup := by
  refine List.nodup_append.2 ⟨sortCtrls_qubits_nodup h.distinct, (h.wf hb).nodup, ?_⟩
  rintro q hq t ht rfl
  refine (h.wf hb).disj q ht ?_
  obtain ⟨c, hc, rfl⟩ := List.mem_map.1 hq
  exact Finset.mem_image_of_mem _ (mem_sortCtrls.1 hc)

theorem Exportable.covered {regs : List Reg} {o : StdOp ℝ} (h : Exportable regs o) :
    Covered regs ((sortCtrls o.controls).map Prod.fst ++ o.targets) := fun i hi => by
  rcases List.mem_append.1 hi with hi | hi
  · exact h.controls i hi
  · exact h.targets i hi

theorem Exportable.barrier_import {X : Exprs E} (P : Printer X) {G : Gates E} {compat : Bool} {regs : List Reg} (hr : WF regs) {ρ : Vals} {o : StdOp ℝ}
    (h : Exportable regs o) (hb : o.type = .barrier) {f : State → State} (hf : ({ o with params := o.params.map P.rnd } : StdOp ℝ).denote = some f)
    (n k : ℕ) (ms : List Mod) :
    ∃ l us, dumpGateType P regs k ms o.type o.params ((sortCtrls o.controls).map Prod.fst) o.targets = .ok l ∧
      importOuts X G compat n regs ρ l = .ok us ∧ (UOp.compound us).denote = some f := by
  obtain ⟨l, h1, qs, h2⟩ := import_barrier P (X := X) (G := G) (compat := compat) (n := n) hr (ρ := ρ) (k := k) (ms := ms) (ps := o.params) h.targets
  refine ⟨l, _, ?_, h2, ?_⟩
  · rw [h.barrier hb, hb, ← h1, sortCtrls_empty]
    rfl
  · rw [UOp.denote_leaves, UOp.leaves_compound, show UOp.leavesL [UOp.std (⟨.barrier, [], ∅, qs⟩ : StdOp ℝ)] = [⟨.barrier, [], ∅, qs⟩] from leavesL_std [_]]
    rw [StdOp.denote_barrier (o := { o with params := o.params.map P.rnd }) hb] at hf
    rw [← hf]
    rfl

/-- **C96.** Exporting a standard operation to OpenQASM 3 and importing the statement gives an operation with the same meaning
(up to the rounding of the parameters that are printed).
Missing from C96: Peres gates (`c96_peres`). -/
theorem c96_qasm3_partial {X : Exprs E} (P : Printer X) {G : Gates E} (hG : Included G) {regs : List Reg} (hr : WF regs) {ρ : Vals}
    (hρ : ρ "pi" = some Real.pi) (n : ℕ) {o : StdOp ℝ} (ho : Exportable regs o) (hp : o.type ∉ [.peres, .peresdg]) {f : State → State}
    (hf : ({ o with params := o.params.map P.rnd } : StdOp ℝ).denote = some f) :
    ∃ l us, dumpOp3 P regs o = .ok l ∧ importOuts X G false (n + 1) regs ρ l = .ok us ∧ (UOp.compound us).denote = some f := by
  by_cases hb : o.type = .barrier
  · exact ho.barrier_import P hr hb hf _ _ _
  · have hnp : o.type ∉ [.barrier, .peres, .peresdg] := by simp only [List.mem_cons] at hp ⊢; tauto
    obtain ⟨i, hi, args, vals, h1, h2, h3, h4, h5, h6⟩ := gateName_means P hρ hf hnp ho.gphase
      (!((sortCtrls o.controls).map Prod.fst).isEmpty)
    have hd : ∃ nC, (∀ m, lookup X G false (cs (dumpControls o.type ((sortCtrls o.controls).map Prod.snd)).1 i.1) m =
          some (.std nC i.2.1 i.2.2.1 i.2.2.2, 0)) ∧
        (sortCtrls o.controls).map Prod.snd =
          List.replicate (nC + 0) true ++ polarities (dumpControls o.type ((sortCtrls o.controls).map Prod.snd)).2 ∧
        ∀ m ∈ (dumpControls o.type ((sortCtrls o.controls).map Prod.snd)).2, ∃ b n, m = Mod.ctrl b n := by
      generalize (sortCtrls o.controls).map Prod.snd = pols
      cases pols with
      | nil => exact ⟨0, fun m => by simpa [dumpControls, cs_zero] using lookup_plain hG hi false m, rfl, by simp [dumpControls]⟩
      | cons b l =>
        unfold dumpControls
        simp only
        split_ifs with hc
        · rw [Bool.and_eq_true] at hc
          refine ⟨_, fun m => lookup_builtin hG hi false (h5 _ hc.2) m, ?_, by simp⟩
          have : b :: l = List.replicate (b :: l).length true := List.eq_replicate_of_mem fun x hx => List.all_eq_true.1 hc.1 x hx
          simpa [polarities] using this
        · refine ⟨0, fun m => by simpa [cs_zero] using lookup_plain hG hi false m, ?_, ctrlMods_ctrl _ _ _⟩
          rw [polarities_ctrlMods]
          simp
    obtain ⟨nC, hl, hpol, hms⟩ := hd
    obtain ⟨out, e1, e2⟩ := import_call (n := n) hr hms hl h2 h3 (ho.nodup hb) hpol h4 ho.covered
    refine ⟨[out], [_], ?_, by simp only [importOuts, mapRes, e2, Res.bind]; rfl, ?_⟩
    · unfold dumpOp3
      simp only [dumpGateType_plain P regs _ _ hnp, h1, Res.bind, e1]
    · rw [UOp.denote_leaves, UOp.leaves_compound, show UOp.leavesL [UOp.std _] = [_] from leavesL_std [_]]
      have : (⟨i.2.2.2, vals, (sortCtrls o.controls).toFinset, o.targets⟩ : StdOp ℝ).denote = some f := by
        rw [h6, sortCtrls_toFinset]
        exact hf
      exact denoteSeq_one this

/-- **C96.** The same for OpenQASM 2, with X gates around the gate for negative controls.
Missing from C96: Peres gates (`c96_peres`, `c96_peres_negative`). -/
theorem c96_qasm2_partial {X : Exprs E} (P : Printer X) {G : Gates E} (hG : Included G) {regs : List Reg} (hr : WF regs) {ρ : Vals}
    (hρ : ρ "pi" = some Real.pi) (n : ℕ) {o : StdOp ℝ} (ho : Exportable regs o) (hp : o.type ∉ [.peres, .peresdg]) {f : State → State}
    (hf : ({ o with params := o.params.map P.rnd } : StdOp ℝ).denote = some f) :
    ∃ l us, dumpOp2 P regs o = .ok l ∧ importOuts X G true (n + 1) regs ρ l = .ok us ∧ (UOp.compound us).denote = some f := by
  have hnp : ¬ (o.type = .peres ∨ o.type = .peresdg) := by simpa using hp
  by_cases hb : o.type = .barrier
  · obtain ⟨l, us, h1, h2, h3⟩ := ho.barrier_import (X := X) P (G := G) (compat := true) hr (ρ := ρ) hb hf (n + 1) (sortCtrls o.controls).length []
    refine ⟨l, us, ?_, h2, h3⟩
    unfold dumpOp2
    simp only [if_neg hnp]
    rw [h1, ho.barrier hb]
    simp [sortCtrls_empty, dumpX, Res.bind]
  · have hnb : o.type ∉ [.barrier, .peres, .peresdg] := by simp only [List.mem_cons] at hp ⊢; tauto
    obtain ⟨i, hi, args, vals, h1, h2, h3, h4, h5, h6⟩ := gateName_means P hρ hf hnb ho.gphase
      (!((sortCtrls o.controls).map Prod.fst).isEmpty)
    have hfst : (positive (sortCtrls o.controls)).map Prod.fst = (sortCtrls o.controls).map Prod.fst := by simp [positive]
    obtain ⟨nC, j, hl, hnj⟩ := lookup_cs (X := X) hG hi (sortCtrls o.controls).length
    have hnd := ho.nodup hb
    have hpol : (positive (sortCtrls o.controls)).map Prod.snd = List.replicate (nC + j) true ++ polarities [] := by
      rw [hnj]
      simp [positive, polarities, Function.comp_def]
    obtain ⟨out, e1, e2⟩ := import_call (c := positive (sortCtrls o.controls)) (ms := []) (n := n) hr (by simp) hl h2 h3 (by rw [hfst]; exact hnd) hpol h4
      (by rw [hfst]; exact ho.covered)
    rw [hfst] at e1
    obtain ⟨lx, e3, e4⟩ := import_x (X := X) hG (n := n) hr (ρ := ρ) (sortCtrls o.controls) ho.controls
    have hmain : importOuts X G true (n + 1) regs ρ [out] = .ok [.std ⟨i.2.2.2, vals, (positive (sortCtrls o.controls)).toFinset, o.targets⟩] := by
      simp only [importOuts, mapRes, e2, Res.bind]
    refine ⟨lx ++ ([out] ++ lx), _, ?_, mapRes_append e4 (mapRes_append hmain e4), ?_⟩
    · unfold dumpOp2
      simp only [if_neg hnp, dumpGateType_plain P regs _ _ hnb, h1, Res.bind, e1, e3]
    · rw [UOp.denote_leaves, UOp.leaves_compound]
      have : (⟨i.2.2.2, vals, (sortCtrls o.controls).toFinset, o.targets⟩ : StdOp ℝ).denote = some f := by
        rw [h6, sortCtrls_toFinset]
        exact hf
      have hc := denote_conjugated hnd this (by intro h; revert hi; rw [show i = (i.1, i.2.1, i.2.2.1, i.2.2.2) from rfl, h]; simp [exported])
      rw [← hc]
      congr 1
      have := leavesL_std (xOps (sortCtrls o.controls) ++ ⟨i.2.2.2, vals, (positive (sortCtrls o.controls)).toFinset, o.targets⟩ :: xOps (sortCtrls o.controls))
      simpa using this

/-- What the two statements of a Peres gate are imported as. -/
theorem import_peres {X : Exprs E} (P : Printer X) {G : Gates E} {compat : Bool} {regs : List Reg} (hr : WF regs) {ρ : Vals} {n k : ℕ} {ms : List Mod}
    (hms : ∀ m ∈ ms, ∃ b n, m = .ctrl b n) {c : List Ctrl} {t0 t1 : ℕ} (hnd : (c.map Prod.fst ++ [t0, t1]).Nodup)
    (hc : Covered regs (c.map Prod.fst ++ [t0, t1])) {nC j nC' j' : ℕ} (hl : ∀ m, lookup X G compat (cs k "x") m = some (.std nC 1 0 .x, j))
    (hl' : ∀ m, lookup X G compat (cs k "cx") m = some (.std nC' 1 0 .x, j')) (hp : c.map Prod.snd = List.replicate (nC + j) true ++ polarities ms)
    (hp' : c.map Prod.snd ++ [true] = List.replicate (nC' + j') true ++ polarities ms) (ps : List ℝ) :
    (∃ l, dumpGateType P regs k ms .peres ps (c.map Prod.fst) [t0, t1] = .ok l ∧ importOuts X G compat (n + 1) regs ρ l =
      .ok [.std ⟨.x, [], (c ++ [(t1, true)]).toFinset, [t0]⟩, .std ⟨.x, [], c.toFinset, [t1]⟩]) ∧
    (∃ l, dumpGateType P regs k ms .peresdg ps (c.map Prod.fst) [t0, t1] = .ok l ∧ importOuts X G compat (n + 1) regs ρ l =
      .ok [.std ⟨.x, [], c.toFinset, [t1]⟩, .std ⟨.x, [], (c ++ [(t1, true)]).toFinset, [t0]⟩]) := by
  have hperm : (c.map Prod.fst ++ [t1, t0]).Nodup := (List.Perm.append_left _ (List.Perm.swap t0 t1 [])).nodup_iff.2 hnd
  have hcov : ∀ qs : List ℕ, (∀ q ∈ qs, q ∈ c.map Prod.fst ++ [t0, t1]) → Covered regs qs := fun qs h i hi => hc i (h i hi)
  obtain ⟨o1, e1, e2⟩ := import_call (n := n) (ρ := ρ) hr hms hl (args := []) (vals := []) rfl rfl (c := c) (ts := [t1])
    (hperm.sublist (by simp)) hp rfl (hcov _ (by simp; tauto))
  obtain ⟨o2, e3, e4⟩ := import_call (n := n) (ρ := ρ) hr hms hl' (args := []) (vals := []) rfl rfl (c := c ++ [(t1, true)]) (ts := [t0])
    (by simpa using hperm) (by simpa using hp') rfl (hcov _ (by simp; tauto))
  rw [show (c ++ [(t1, true)]).map Prod.fst ++ [t0] = c.map Prod.fst ++ [t1, t0] by simp] at e3
  exact ⟨⟨[o2, o1], by simp only [dumpGateType, e1, e3, Res.bind], by simp only [importOuts, mapRes, e2, e4, Res.bind]⟩,
    ⟨[o1, o2], by simp only [dumpGateType, e1, e3, Res.bind], by simp only [importOuts, mapRes, e2, e4, Res.bind]⟩⟩

/-- **C96.** A Peres gate with positive controls is exported with its targets exchanged: that is what the statements imported
perform, from both versions of OpenQASM. -/
theorem c96_peres_exchanged {X : Exprs E} (P : Printer X) {G : Gates E} (hG : Included G) {regs : List Reg} (hr : WF regs) (ρ : Vals) (n : ℕ)
    {o : StdOp ℝ} (ho : Exportable regs o) (hp : o.type ∈ [.peres, .peresdg]) {t0 t1 : ℕ} (ht : o.targets = [t0, t1])
    (hpos : ∀ c ∈ o.controls, c.2 = true) :
    ∃ f, ({ o with targets := [t1, t0] } : StdOp ℝ).denote = some f ∧
      (∃ l us, dumpOp2 P regs o = .ok l ∧ importOuts X G true (n + 1) regs ρ l = .ok us ∧ (UOp.compound us).denote = some f) ∧
      ∃ l us, dumpOp3 P regs o = .ok l ∧ importOuts X G false (n + 1) regs ρ l = .ok us ∧ (UOp.compound us).denote = some f := by
  have hb : o.type ≠ .barrier := by rintro h; rw [h] at hp; simp at hp
  have hnd := ho.nodup hb
  have hcov := ho.covered
  rw [ht] at hnd hcov
  have hne : t0 ≠ t1 := by
    have := (List.nodup_append.1 hnd).2.1
    simpa using this
  have hpols : (sortCtrls o.controls).map Prod.snd = List.replicate (sortCtrls o.controls).length true := by
    refine List.eq_replicate_of_mem (l := (sortCtrls o.controls).map Prod.snd) (a := true) (fun b hb => ?_) |>.trans (by simp)
    obtain ⟨c, hc, rfl⟩ := List.mem_map.1 hb
    exact hpos c (mem_sortCtrls.1 hc)
  have hx : ("x", 1, 0, OpType.x) ∈ exported := by simp [exported]
  obtain ⟨a, j, hl2, haj⟩ := lookup_cs (X := X) hG hx (sortCtrls o.controls).length
  obtain ⟨a', j', hl2', haj'⟩ := lookup_cs (X := X) hG hx ((sortCtrls o.controls).length + 1)
  have hcx : ∀ k, cs (k + 1) "x" = cs k "cx" := fun k => by rw [← cs_cs]; rfl
  simp only at hl2 hl2'
  rw [hcx] at hl2'
  have h2 := import_peres P (ρ := ρ) (n := n) (ms := []) hr (by simp) hnd hcov hl2 hl2' (by rw [hpols, haj]; simp [polarities])
    (by rw [hpols, haj']; simp [polarities, List.replicate_succ']) o.params
  have hl3 : ∀ m, lookup X G false (cs 0 "x") m = some (.std 0 1 0 .x, 0) := fun m => by rw [cs_zero]; exact lookup_plain hG hx false m
  have hl3' : ∀ m, lookup X G false (cs 0 "cx") m = some (.std 1 1 0 .x, 0) := fun m => by
    rw [← hcx]; exact lookup_builtin hG hx false (k := 1) rfl m
  have hdc : dumpControls o.type ((sortCtrls o.controls).map Prod.snd) = (0, (dumpControls o.type ((sortCtrls o.controls).map Prod.snd)).2) ∧
      polarities (dumpControls o.type ((sortCtrls o.controls).map Prod.snd)).2 = (sortCtrls o.controls).map Prod.snd ∧
      ∀ m ∈ (dumpControls o.type ((sortCtrls o.controls).map Prod.snd)).2, ∃ b n, m = Mod.ctrl b n := by
    generalize (sortCtrls o.controls).map Prod.snd = pols
    have hbu : ∀ n, builtin o.type n = false := fun n => by
      simp only [List.mem_cons, List.not_mem_nil, or_false] at hp
      rcases hp with h | h <;> rw [h] <;> rfl
    cases pols with
    | nil => simp [dumpControls, polarities]
    | cons b l =>
      simp only [dumpControls, hbu, Bool.and_false, Bool.false_eq_true, if_false, polarities_ctrlMods]
      exact ⟨trivial, by simp, ctrlMods_ctrl _ _ _⟩
  obtain ⟨hd1, hd2, hd3⟩ := hdc
  have h3 := import_peres P (ρ := ρ) (n := n) hr hd3 hnd hcov hl3 hl3' (by rw [hd2]; simp)
    (by rw [hd2, hpols, ← List.replicate_succ', Nat.add_zero, List.replicate_succ, List.replicate_one]; rfl) o.params
  have hC : Loc o.controls (app1 (mat1 0 1 1 0) t1) := app1_local (by
    intro hm
    exact (ho.wf hb).disj t1 (by rw [ht]; simp) hm) _
  have hC' : Loc o.controls (ctl {(t1, true)} (app1 (mat1 0 1 1 0) t0)) := Loc.ctl (app1_local (by
    intro hm
    exact (ho.wf hb).disj t0 (by rw [ht]; simp) hm) _)
  have hset : ((sortCtrls o.controls) ++ [(t1, true)]).toFinset = o.controls ∪ {(t1, true)} := by
    rw [List.toFinset_append, sortCtrls_toFinset]; rfl
  have hd0 : (⟨.x, [], ((sortCtrls o.controls) ++ [(t1, true)]).toFinset, [t0]⟩ : StdOp ℝ).denote =
      some (ctl o.controls (ctl {(t1, true)} (app1 (mat1 0 1 1 0) t0))) := by
    rw [hset, ← ctl_union]; rfl
  have hd1' : (⟨.x, [], (sortCtrls o.controls).toFinset, [t1]⟩ : StdOp ℝ).denote = some (ctl o.controls (app1 (mat1 0 1 1 0) t1)) := by
    rw [sortCtrls_toFinset]; rfl
  have den : ∀ (a b : StdOp ℝ) (f g : State → State), a.denote = some f → b.denote = some g →
      (UOp.compound [.std a, .std b]).denote = some fun ψ => g (f ψ) := by
    intro a b f g h1 h2
    rw [UOp.denote_leaves, UOp.leaves_compound, show UOp.leavesL [UOp.std a, UOp.std b] = [a, b] from leavesL_std [a, b]]
    exact denoteSeq_cons_of h1 (denoteSeq_one h2)
  simp only [List.mem_cons, List.not_mem_nil, or_false] at hp
  rcases hp with hp | hp
  · refine ⟨ctl o.controls (app2 (mat2 0 0 0 1  0 0 1 0  1 0 0 0  0 1 0 0) t1 t0), ?_, ?_, ?_⟩
    · exact StdOp.denote_two_of (by simp only [hp]; rfl) rfl (by simp only [hp]; rfl)
    all_goals
      have hf := den _ _ _ _ hd0 hd1'
      rw [← ctl_seq hC, show (fun ψ => app1 (mat1 0 1 1 0) t1 (ctl {(t1, true)} (app1 (mat1 0 1 1 0) t0) ψ)) = _ from
        funext fun ψ => peres_exchanged hne ψ] at hf
    · obtain ⟨l, e1, e2⟩ := h2.1
      exact ⟨l, _, by simp only [dumpOp2, hp, true_or, if_true, ht, e1], e2, hf⟩
    · obtain ⟨l, e1, e2⟩ := h3.1
      refine ⟨l, _, ?_, e2, hf⟩
      unfold dumpOp3
      simp only
      rw [hd1, ht, hp]
      rw [hp] at e1
      exact e1
  · refine ⟨ctl o.controls (app2 (mat2 0 0 1 0  0 0 0 1  0 1 0 0  1 0 0 0) t1 t0), ?_, ?_, ?_⟩
    · exact StdOp.denote_two_of (by simp only [hp]; rfl) rfl (by simp only [hp]; rfl)
    all_goals
      have hf := den _ _ _ _ hd1' hd0
      rw [← ctl_seq hC', show (fun ψ => ctl {(t1, true)} (app1 (mat1 0 1 1 0) t0) (app1 (mat1 0 1 1 0) t1 ψ)) = _ from
        funext fun ψ => peresdg_exchanged hne ψ] at hf
    · obtain ⟨l, e1, e2⟩ := h2.2
      exact ⟨l, _, by simp only [dumpOp2, hp, or_true, if_true, ht, e1], e2, hf⟩
    · obtain ⟨l, e1, e2⟩ := h3.2
      refine ⟨l, _, ?_, e2, hf⟩
      unfold dumpOp3
      simp only
      rw [hd1, ht, hp]
      rw [hp] at e1
      exact e1

/-! ### Examples and disagreements -/

/-- Expressions: a number or a name. -/
def numbers : Exprs (ℝ ⊕ String) where
  ev ρ e := e.elim some ρ
  ident := .inr
  ev_ident _ _ := rfl

/-- Printing without rounding. -/
noncomputable def exact : Printer numbers where
  rnd v := v
  num := .inl
  piOver neg k := .inl ((if neg then -Real.pi else Real.pi) / k)
  ev_num _ _ := rfl
  ev_piOver _ _ _ _ := rfl

/-- A register of two qubits and one of three. -/
def qregs2 : List Reg := [⟨0, 2, "a"⟩, ⟨2, 3, "b"⟩]

theorem qregs2_wf : WF qregs2 := by
  simp only [WF, qregs2, List.pairwise_cons, List.mem_cons, List.not_mem_nil, or_false, forall_eq, Reg.contains, decide_eq_true_eq]
  refine ⟨⟨by decide, fun i h => by omega⟩, by simp⟩

theorem qregs2_covered {l : List ℕ} (h : ∀ i ∈ l, i < 5) : Covered qregs2 l := by
  intro i hi
  have := h i hi
  by_cases h2 : i < 2
  · exact ⟨⟨0, 2, "a"⟩, by simp [qregs2], by simp [Reg.contains, h2]⟩
  · exact ⟨⟨2, 3, "b"⟩, by simp [qregs2], by simp [Reg.contains]; omega⟩

theorem exportable_of {o : StdOp ℝ} (wf : o.WF) (hd : Distinct o.controls) (ht : ∀ i ∈ o.targets, i < 5) (hc : ∀ c ∈ o.controls, c.1 < 5)
    (h1 : o.type ≠ .barrier) (h2 : o.type ≠ .gphase) : Exportable qregs2 o :=
  ⟨fun _ => wf, hd, qregs2_covered ht, qregs2_covered fun i hi => by
    obtain ⟨c, hc', rfl⟩ := List.mem_map.1 hi
    exact hc c (mem_sortCtrls.1 hc'), fun h => absurd h h1, fun h => absurd h h2⟩

/-- An S gate with a positive and a negative control. -/
def ncs : StdOp ℝ := ⟨.s, [], {(1, true), (4, false)}, [2]⟩

theorem ncs_exportable : Exportable qregs2 ncs :=
  exportable_of ⟨by simp [ncs], by simp [ncs, ctrlQubits]⟩ (by simp [Distinct, ncs]) (by simp [ncs]) (by simp [ncs]) (by simp [ncs]) (by simp [ncs])

theorem sort_ncs : sortCtrls ncs.controls = [(1, true), (4, false)] := by
  refine List.Perm.eq_of_pairwise (le := fun a b : Ctrl => toLex a ≤ toLex b) ?_ ?_ ?_ ?_
  · intro a b _ _ h h'
    exact toLex.injective (le_antisymm h h')
  · unfold sortCtrls
    rw [List.pairwise_map]
    exact Finset.pairwise_sort (ncs.controls.map toLex.toEmbedding) (fun a b => a ≤ b)
  · decide
  · exact List.perm_of_nodup_nodup_toFinset_eq (sortCtrls_nodup _) (by decide) (by rw [sortCtrls_toFinset]; rfl)

/-- `ctrl @ negctrl @ p(pi/2) a[1], b[2], b[0];` -/
example : dumpOp3 exact qregs2 ncs =
    .ok [.call ⟨"p", [.ctrl true 1, .ctrl false 1], [.inl (Real.pi / 2)], [.op (.elem "a" 1), .op (.elem "b" 2), .op (.elem "b" 0)]⟩] := by
  unfold dumpOp3
  rw [sort_ncs]
  have : cs 0 "p" = "p" := by decide +kernel
  simp [ncs, dumpControls, builtin, ctrlMods, dumpGateType, gateName, dumpCall, dumpOperands, elemAt, regAt, qregs2, Reg.contains, Res.bind, exact, this]

/-- `x b[2]; ccp(pi/2) a[1], b[2], b[0]; x b[2];` -/
example : dumpOp2 exact qregs2 ncs =
    .ok [.call ⟨"x", [], [], [.op (.elem "b" 2)]⟩,
      .call ⟨"ccp", [], [.inl (Real.pi / 2)], [.op (.elem "a" 1), .op (.elem "b" 2), .op (.elem "b" 0)]⟩,
      .call ⟨"x", [], [], [.op (.elem "b" 2)]⟩] := by
  unfold dumpOp2
  rw [sort_ncs]
  have h1 : cs 2 "p" = "ccp" := by decide +kernel
  have h2 : cs 0 "x" = "x" := by decide +kernel
  simp [ncs, dumpX, dumpGateType, gateName, dumpCall, dumpOperands, elemAt, regAt, qregs2, Reg.contains, Res.bind, exact, h1, h2]

example : ∃ f, ({ ncs with params := ncs.params.map exact.rnd } : StdOp ℝ).denote = some f := ⟨_, rfl⟩
example : Included (stdGates : Gates (ℝ ⊕ String)) := fun _ _ => rfl

/-- A Peres gate. -/
def peres01 : StdOp ℝ := ⟨.peres, [], ∅, [0, 1]⟩

theorem peres01_exportable : Exportable qregs2 peres01 :=
  exportable_of ⟨by simp [peres01], by simp [peres01, ctrlQubits]⟩ (by simp [Distinct, peres01]) (by simp [peres01]) (by simp [peres01])
    (by simp [peres01]) (by simp [peres01])

/-- Applied to the first basis state, with the targets in either order. -/
theorem peres_order : (⟨.peres, [], ∅, [1, 0]⟩ : StdOp ℝ).denote ≠ peres01.denote := by
  intro h
  have h : ctl ∅ (app2 (mat2 0 0 0 1  0 0 1 0  1 0 0 0  0 1 0 0) 1 0) = ctl ∅ (app2 (mat2 0 0 0 1  0 0 1 0  1 0 0 0  0 1 0 0) 0 1) :=
    Option.some.inj h
  have := congrFun (congrFun h fun x => if x 0 || x 1 then 0 else 1) fun i => decide (i = 0)
  simp [ctl, Sat, app2, Fintype.sum_prod_type, mat2] at this

/-- **C96** fails for Peres gates, in both versions: what is imported does not have the meaning of the gate. -/
theorem c96_peres (ρ : Vals) (n : ℕ) :
    (∃ l us, dumpOp2 exact qregs2 peres01 = .ok l ∧ importOuts numbers stdGates true (n + 1) qregs2 ρ l = .ok us ∧
      (UOp.compound us).denote ≠ peres01.denote) ∧
    ∃ l us, dumpOp3 exact qregs2 peres01 = .ok l ∧ importOuts numbers stdGates false (n + 1) qregs2 ρ l = .ok us ∧
      (UOp.compound us).denote ≠ peres01.denote := by
  obtain ⟨f, hf, ⟨l, us, h1, h2, h3⟩, l', us', h1', h2', h3'⟩ := c96_peres_exchanged exact (G := stdGates) (fun _ _ => rfl) qregs2_wf ρ n
    peres01_exportable (by simp [peres01]) (t0 := 0) (t1 := 1) rfl (by simp [peres01])
  have hne : some f ≠ peres01.denote := by rw [← hf]; exact peres_order
  exact ⟨⟨l, us, h1, h2, by rw [h3]; exact hne⟩, l', us', h1', h2', by rw [h3']; exact hne⟩

/-- **C96** fails for a Peres gate with a negative control in OpenQASM 2: the control is positive afterwards. -/
theorem c96_peres_negative (ρ : Vals) (n : ℕ) :
    ∃ l us, dumpOp2 exact qregs2 { peres01 with controls := {(2, false)} } = .ok l ∧ importOuts numbers stdGates true (n + 1) qregs2 ρ l = .ok us ∧
      us = [.std ⟨.x, [], {(2, true), (1, true)}, [0]⟩, .std ⟨.x, [], {(2, true)}, [1]⟩] := by
  have hs : sortCtrls {(2, false)} = [(2, false)] := by simp [sortCtrls]
  have hx : ("x", 1, 0, OpType.x) ∈ exported := by simp [exported]
  have hG : Included (stdGates : Gates (ℝ ⊕ String)) := fun _ _ => rfl
  obtain ⟨a, j, hl, haj⟩ := lookup_cs (X := numbers) hG hx 1
  obtain ⟨a', j', hl', haj'⟩ := lookup_cs (X := numbers) hG hx 2
  have hcx : cs 2 "x" = cs 1 "cx" := by decide +kernel
  simp only at hl hl'
  rw [hcx] at hl'
  obtain ⟨⟨l, e1, e2⟩, -⟩ := import_peres exact (ρ := ρ) (n := n) (ms := []) qregs2_wf (by simp) (c := [(2, true)]) (t0 := 0) (t1 := 1) (by decide)
    (qregs2_covered (by simp)) hl hl' (by rw [haj]; rfl) (by rw [haj']; rfl) []
  refine ⟨l, _, ?_, e2, ?_⟩
  · simp only [dumpOp2, peres01, hs, true_or, if_true]
    exact e1
  · rfl

/-- ... so that it does not do what the gate does, in either order of the targets. -/
theorem c96_peres_negative_meaning (ts : List ℕ) (hts : ts ∈ [[0, 1], [1, 0]]) :
    (UOp.compound [.std ⟨.x, [], {(2, true), (1, true)}, [0]⟩, .std ⟨.x, [], {(2, true)}, [1]⟩] : UOp ℝ).denote ≠
      ({ peres01 with controls := {(2, false)}, targets := ts } : StdOp ℝ).denote := by
  intro h
  have hd : (UOp.compound [.std ⟨.x, [], {(2, true), (1, true)}, [0]⟩, .std ⟨.x, [], {(2, true)}, [1]⟩] : UOp ℝ).denote =
      some fun ψ => ctl {(2, true)} (app1 (mat1 0 1 1 0) 1) (ctl {(2, true), (1, true)} (app1 (mat1 0 1 1 0) 0) ψ) := by
    rw [UOp.denote_leaves, UOp.leaves_compound, show UOp.leavesL [UOp.std _, UOp.std _] = [_, _] from leavesL_std [_, _]]
    exact denoteSeq_cons_of rfl (denoteSeq_one rfl)
  rw [hd] at h
  simp only [List.mem_cons, List.not_mem_nil, or_false] at hts
  rcases hts with rfl | rfl
  · have h : _ = ctl {(2, false)} (app2 (mat2 0 0 0 1  0 0 1 0  1 0 0 0  0 1 0 0) 0 1) := Option.some.inj h
    have := congrFun (congrFun h fun x => if x 0 || x 1 then 0 else 1) fun i => false
    simp [ctl, Sat, app2, Fintype.sum_prod_type, mat2] at this
  · have h : _ = ctl {(2, false)} (app2 (mat2 0 0 0 1  0 0 1 0  1 0 0 0  0 1 0 0) 1 0) := Option.some.inj h
    have := congrFun (congrFun h fun x => if x 0 || x 1 then 0 else 1) fun i => false
    simp [ctl, Sat, app2, Fintype.sum_prod_type, mat2] at this

/-- **C96.** A `move` operation is exported, but the importer does not know the gate. -/
theorem c96_move (ρ : Vals) (n : ℕ) : ∃ l, dumpOp3 exact qregs2 ⟨.move, [], ∅, [0, 1]⟩ = .ok l ∧
    importOuts numbers stdGates false (n + 1) qregs2 ρ l = .throw := by
  refine ⟨[.call ⟨cs 0 "move", [], [], [.op (.elem "a" 0), .op (.elem "a" 1)]⟩], ?_, ?_⟩
  · simp [dumpOp3, sortCtrls_empty, dumpControls, dumpGateType, gateName, dumpCall, dumpOperands, elemAt, regAt, qregs2, Reg.contains, Res.bind]
  · have : lookup numbers stdGates false (cs 0 "move") 2 = none := by rw [cs_zero]; rfl
    simp [importOuts, mapRes, importOut, evalCall, this, Res.bind]

end MQT.QASM.GateCall
