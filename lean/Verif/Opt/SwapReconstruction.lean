/-
`CircuitOptimizer::swapReconstruction` (`src/circuit_optimizer/CircuitOptimizer.cpp` 89-168).
-/
import Verif.Opt.Rewrite

set_option autoImplicit false
set_option linter.unusedSectionVars false

namespace MQT.Opt

open MQT.IR
open Function (update)

/-- One iteration of the loop (92-165) for the operation at position `k`; `n` is the size of the
`DAG`; `none` = exception (`.at` out of range). -/
def swapRecStep {P : Type} (n : ℕ) (S : PassState P) (k : ℕ) : Option (PassState P) :=
  match S.ops[k]? with
  | none => none
  | some it =>
    match cnot? it with
    | none => S.add n k it.usedQ
    | some (control, target) =>
      if n ≤ control ∨ n ≤ target then none
      else match S.dag control, S.dag target with
      | opC :: restC, opT :: restT =>
        match S.ops[opC]?.bind cnot?, S.ops[opT]?.bind cnot? with
        | some (opControl, opCtarget), some (opTcontrol, opTtarget) =>
          if opControl ≠ opTcontrol ∨ opCtarget ≠ opTtarget then S.add n k it.usedQ
          else if control = opControl ∧ target = opCtarget then
            some { ops := (S.ops.modify opC kill).modify k kill
                   dag := update (update S.dag control restC) target restT }
          else if control = opCtarget ∧ target = opControl then
            let a := if target > control then control else target
            let b := if target > control then target else control
            let S1 : PassState P :=
              { ops := S.ops.modify opC (retype .swap [a, b] ∅)
                dag := update (update S.dag control restC) target restT }
            (S1.add n opC {a, b}).bind fun S2 =>
              PassState.add n { S2 with ops := S2.ops.modify k (retype .x [control] {(target, true)}) } k
                {control, target}
          else S.add n k it.usedQ
        | _, _ => S.add n k it.usedQ
      | _, _ => S.add n k it.usedQ

/-- The whole pass. -/
def swapReconstruction {P : Type} (n : ℕ) (ops : List (Op P)) : Option (List (Op P)) :=
  ((List.range ops.length).foldlM (swapRecStep n) { ops := ops, dag := fun _ => [] }).map fun S =>
    removeIdentities S.ops

theorem cx_valid {ps : List ℝ} {c t : ℕ} (h : c ≠ t) :
    (Op.std { type := .x, params := ps, controls := {(c, true)}, targets := [t] }).Valid := by
  rw [Op.Valid]
  refine ⟨⟨by simp, ?_⟩, _, cnot_denote rfl rfl rfl⟩
  intro q hq hc
  simp only [List.mem_singleton] at hq
  simp only [ctrlQubits, Finset.image_singleton, Finset.mem_singleton] at hc
  omega

theorem swap_valid {ps : List ℝ} {a b : ℕ} (h : a ≠ b) :
    (Op.std { type := .swap, params := ps, controls := ∅, targets := [a, b] }).Valid := by
  rw [Op.Valid]
  exact ⟨⟨by simp [h], by simp [ctrlQubits]⟩, _, swap_denote rfl rfl rfl⟩

theorem on_of {Q : Finset ℕ} {s : StdOp ℝ} {g : State → State} (h : s.denote = some g)
    (hu : s.used = Q) : On Q s := ⟨Or.inr ⟨g, h⟩, fun _ => hu ▸ Finset.Subset.refl _⟩

theorem on_dead {Q : Finset ℕ} {s : StdOp ℝ} (h : s.type = .i) : On Q s :=
  ⟨Or.inl h, fun h' => absurd h h'⟩

theorem strip_dead {s : StdOp ℝ} (h : s.type = .i) (l : List (Op ℝ)) :
    strip (.std s :: l) = strip l := by
  rw [strip, List.filter_cons_of_neg (by simp [Op.type, h])]; rfl

theorem strip_live {s : StdOp ℝ} (h : s.type ≠ .i) (l : List (Op ℝ)) :
    strip (.std s :: l) = .std s :: strip l := by
  rw [strip, List.filter_cons_of_pos (by simp [Op.type, h])]; rfl

theorem run_pull_nil (c : Cfg) : run [] c = some (c.mapSt (pull fun x => x)) := by
  rw [run_nil]; rfl

theorem run_pull_cons {s : StdOp ℝ} {g g' : Bits → Bits} {l : List (Op ℝ)}
    (h : s.denote = some (pull g)) (hl : ∀ c, run l c = some (c.mapSt (pull g'))) (c : Cfg) :
    run (.std s :: l) c = some (c.mapSt (pull fun x => g (g' x))) := by
  rw [run_cons, exec_pull h, Option.bind_some, hl]; rfl

theorem swapRec_step {n k : ℕ} {ops0 : List (Op ℝ)} {S : PassState ℝ} (h : PassInv n ops0 S k)
    (hk : k < S.ops.length) :
    ∃ S', swapRecStep n S k = some S' ∧ PassInv n ops0 S' (k + 1) := by
  obtain ⟨it, hit⟩ : ∃ it, S.ops[k]? = some it := ⟨_, List.getElem?_eq_getElem hk⟩
  have hadd := h.add hit
  rw [swapRecStep, hit]
  simp only
  cases hc : cnot? it with
  | none => exact hadd
  | some p =>
    obtain ⟨c, t⟩ := p
    have okit := h.ok it (List.mem_of_getElem? hit)
    have hti : it.type ≠ .i := by
      obtain ⟨o, rfl, ht, -⟩ := cnot?_eq_some hc
      rw [Op.type, ht]; decide
    obtain ⟨s2, rfl, h1, h2, h3, hct⟩ := cnot?_valid hc (okit.valid hti)
    have us2 : s2.used = {c, t} := used_cx h2 h3
    have hr : c < n ∧ t < n :=
      ⟨okit.range c (by rw [Op.usedQ, us2]; simp), okit.range t (by rw [Op.usedQ, us2]; simp)⟩
    simp only
    rw [if_neg (by omega)]
    cases hdc : S.dag c with
    | nil => exact hadd
    | cons opC restC =>
    cases hdt : S.dag t with
    | nil => exact hadd
    | cons opT restT =>
    simp only
    obtain ⟨-, eC, heC, hcC⟩ := h.dag.sound c opC (by rw [hdc]; simp)
    obtain ⟨-, eT, heT, htT⟩ := h.dag.sound t opT (by rw [hdt]; simp)
    rw [heC, heT, Option.bind_some, Option.bind_some]
    cases hcC' : cnot? eC with
    | none => exact hadd
    | some pC =>
    cases hcT' : cnot? eT with
    | none => exact hadd
    | some pT =>
    obtain ⟨c1, t1⟩ := pC
    obtain ⟨c2, t2⟩ := pT
    simp only
    by_cases g1 : c1 ≠ c2 ∨ t1 ≠ t2
    · rw [if_pos g1]; exact hadd
    rw [if_neg g1]
    by_cases g2 : c = c1 ∧ t = t1
    · rw [if_pos g2]
      -- elimination
      push Not at g1
      obtain ⟨rfl, rfl⟩ := g1
      obtain ⟨rfl, rfl⟩ := g2
      have oC := h.ok eC (List.mem_of_getElem? heC)
      have oT := h.ok eT (List.mem_of_getElem? heT)
      have tC : eC.type ≠ .i := by
        obtain ⟨o, rfl, ht, -⟩ := cnot?_eq_some hcC'
        rw [Op.type, ht]; decide
      have tT : eT.type ≠ .i := by
        obtain ⟨o, rfl, ht, -⟩ := cnot?_eq_some hcT'
        rw [Op.type, ht]; decide
      obtain ⟨s1, rfl, a1, a2, a3, -⟩ := cnot?_valid hcC' (oC.valid tC)
      obtain ⟨sT, rfl, b1, b2, b3, -⟩ := cnot?_valid hcT' (oT.valid tT)
      have us1 : s1.used = {c, t} := used_cx a2 a3
      have usT : sT.used = {c, t} := used_cx b2 b3
      have : opC = opT := h.dag.last_unique hdc hdt heC heT (by rw [Op.usedQ, us1]; simp)
        (by rw [Op.usedQ, usT]; simp) tC tT
      subst this
      have hik : opC < k := (h.dag.sound c opC (by rw [hdc]; simp)).1
      refine ⟨_, rfl, ?_⟩
      rw [modify_eq_set heC, modify_eq_set (a := Op.std s2)
        (by rw [List.getElem?_set_ne (by omega)]; exact hit)]
      refine ⟨by simp [h.len], ?_, ?_, ?_⟩
      · refine DagInv.skip (o := kill (.std s2)) ?_ ?_ rfl
        · exact (h.dag.kill heC (by rw [Op.usedQ, us1]) hdc hdt rfl).set_current _
        · rw [List.getElem?_set_self (by simpa using hk)]
      · refine ok_set (ok_set h.ok ?_) ?_
        · refine opOk_std (fun h' => absurd rfl h') fun q hq => ?_
          rw [StdOp.mem_used] at hq
          simp only [a3, List.mem_singleton, ctrlQubits, Finset.image_empty, Finset.notMem_empty,
            or_false] at hq
          omega
        · refine opOk_std (fun h' => absurd rfl h') fun q hq => ?_
          rw [StdOp.mem_used] at hq
          simp only [h3, List.mem_singleton, ctrlQubits, Finset.image_empty, Finset.notMem_empty,
            or_false] at hq
          omega
      · have d1 := cnot_denote a1 a2 a3
        have d2 := cnot_denote h1 h2 h3
        refine h.pair hdc hdt heC hit (on_of d2 us2) (on_dead rfl) ?_
        unfold Eqv
        rw [strip_live (s := s1) (by rw [a1]; decide), strip_live (s := s2) (by rw [h1]; decide),
          strip_dead rfl, strip_dead rfl]
        funext cfg
        have e0 := run_pull_cons d1 (run_pull_cons d2 run_pull_nil) cfg
        simp only [cxMap_cxMap hct] at e0
        rw [show strip ([] : List (Op ℝ)) = [] from rfl, e0, run_pull_nil]
    rw [if_neg g2]
    by_cases g3 : c = t1 ∧ t = c1
    · rw [if_pos g3]
      -- SWAP + CNOT
      push Not at g1
      obtain ⟨rfl, rfl⟩ := g1
      obtain ⟨rfl, rfl⟩ := g3
      have oC := h.ok eC (List.mem_of_getElem? heC)
      have oT := h.ok eT (List.mem_of_getElem? heT)
      have tC : eC.type ≠ .i := by
        obtain ⟨o, rfl, ht, -⟩ := cnot?_eq_some hcC'
        rw [Op.type, ht]; decide
      have tT : eT.type ≠ .i := by
        obtain ⟨o, rfl, ht, -⟩ := cnot?_eq_some hcT'
        rw [Op.type, ht]; decide
      obtain ⟨s1, rfl, a1, a2, a3, -⟩ := cnot?_valid hcC' (oC.valid tC)
      obtain ⟨sT, rfl, b1, b2, b3, -⟩ := cnot?_valid hcT' (oT.valid tT)
      have us1 : s1.used = {t, c} := used_cx a2 a3
      have usT : sT.used = {t, c} := used_cx b2 b3
      have : opC = opT := h.dag.last_unique hdc hdt heC heT (by rw [Op.usedQ, us1]; simp)
        (by rw [Op.usedQ, usT]; simp) tC tT
      subst this
      have hik : opC < k := (h.dag.sound c opC (by rw [hdc]; simp)).1
      obtain ⟨a, b, hab, ha, hb⟩ : ∃ a b, ((a = c ∧ b = t) ∨ (a = t ∧ b = c)) ∧
          (if t > c then c else t) = a ∧ (if t > c then t else c) = b := by
        by_cases hlt : t > c
        · exact ⟨c, t, Or.inl ⟨rfl, rfl⟩, if_pos hlt, if_pos hlt⟩
        · exact ⟨t, c, Or.inr ⟨rfl, rfl⟩, if_neg hlt, if_neg hlt⟩
      simp only [ha, hb]
      have hset : ({a, b} : Finset ℕ) = {c, t} := by
        rcases hab with ⟨rfl, rfl⟩ | ⟨rfl, rfl⟩
        · rfl
        · exact Finset.pair_comm _ _
      have hab' : a ≠ b := by
        rcases hab with ⟨rfl, rfl⟩ | ⟨rfl, rfl⟩
        · exact hct
        · exact hct.symm
      have hrange : ∀ q ∈ ({c, t} : Finset ℕ), q < n := by
        intro q hq
        simp only [Finset.mem_insert, Finset.mem_singleton] at hq
        omega
      -- the lists after popping and pushing the replaced operation are unchanged
      have hdag : (fun q => if q ∈ ({c, t} : Finset ℕ) then
          opC :: update (update S.dag c restC) t restT q
          else update (update S.dag c restC) t restT q) = S.dag := by
        funext q
        simp only [Finset.mem_insert, Finset.mem_singleton]
        by_cases q1 : q = t
        · subst q1; simp [hdt]
        · by_cases q2 : q = c
          · subst q2; simp [q1, hdc]
          · simp [q1, q2]
      simp only [PassState.add, addToDag, hset, if_pos hrange, Option.map_some, Option.bind_some, hdag]
      refine ⟨_, rfl, ?_⟩
      rw [modify_eq_set heC, modify_eq_set (a := Op.std s2)
        (by rw [List.getElem?_set_ne (by omega)]; exact hit)]
      have usw : (Op.usedQ (retype .swap [a, b] ∅ (.std s1))) = {c, t} := by
        rw [retype, Op.usedQ, used_swap rfl rfl, hset]
      have ucx : (Op.usedQ (retype .x [c] {(t, true)} (.std s2))) = {c, t} := by
        rw [retype, Op.usedQ, used_cx rfl rfl, Finset.pair_comm]
      refine ⟨by simp [h.len], ?_, ?_, ?_⟩
      · have hd1 := ((h.dag.set_same heC (o' := retype .swap [a, b] ∅ (.std s1))
          (by rw [usw, Op.usedQ, us1, Finset.pair_comm]) tC).set_current
          (retype .x [c] {(t, true)} (.std s2)))
        have := hd1.add (o := retype .x [c] {(t, true)} (.std s2))
          (by rw [List.getElem?_set_self (by simpa using hk)])
        rwa [ucx] at this
      · refine ok_set (ok_set h.ok ?_) ?_
        · exact opOk_std (fun _ => swap_valid hab') fun q hq => hrange q (by
            rwa [used_swap rfl rfl, hset] at hq)
        · exact opOk_std (fun _ => cx_valid hct.symm) fun q hq => hrange q (by
            rwa [used_cx rfl rfl, Finset.pair_comm] at hq)
      · have d1 := cnot_denote a1 a2 a3
        have d2 := cnot_denote h1 h2 h3
        have d3 : StdOp.denote { s1 with type := .swap, targets := [a, b], controls := ∅ } =
          some (pull (swapMap a b)) := swap_denote rfl rfl rfl
        have d4 : StdOp.denote { s2 with type := .x, targets := [c], controls := {(t, true)} } =
          some (pull (cxMap t c)) := cnot_denote rfl rfl rfl
        refine h.pair hdc hdt heC hit (on_of d2 us2) (on_of d4 (by
          rw [used_cx rfl rfl, Finset.pair_comm])) ?_
        unfold Eqv
        rw [strip_live (by rw [a1]; decide), strip_live (by rw [h1]; decide),
          strip_live (fun e => by cases e), strip_live (fun e => by cases e)]
        funext cfg
        have e0 := run_pull_cons d1 (run_pull_cons d2 run_pull_nil) cfg
        have e1 := run_pull_cons d3 (run_pull_cons d4 run_pull_nil) cfg
        simp only [cx_cx_eq_swap_cx hct.symm] at e0
        have hsw : swapMap a b = swapMap t c := by
          rcases hab with ⟨rfl, rfl⟩ | ⟨rfl, rfl⟩
          · funext x; exact swapMap_comm _ _ x
          · rfl
        rw [hsw] at e1
        rw [show strip ([] : List (Op ℝ)) = [] from rfl, e0, e1]
    · rw [if_neg g3]; exact hadd

/-- Starting point of a pass. -/
theorem PassInv.init {n : ℕ} {ops : List (Op ℝ)} (hv : Op.ValidL ops)
    (hp : ∀ e ∈ ops, e.plain = true) (hr : ∀ e ∈ ops, ∀ q ∈ e.usedQ, q < n) :
    PassInv n ops { ops := ops, dag := fun _ => [] } 0 := by
  refine ⟨rfl, DagInv.init, ?_, Eqv.refl _⟩
  intro e he
  have hve := (Op.validL_iff ops).1 hv e he
  refine ⟨hp e he, ?_, fun _ => hve, hr e he⟩
  match e with
  | .compound l b => rw [Op.Valid] at hve; exact hve
  | .std _ => trivial
  | .measure _ _ => trivial
  | .reset _ => trivial
  | .classic _ _ => trivial

/-- Run a pass whose every step keeps the invariant. -/
theorem PassInv.fold {n : ℕ} {ops : List (Op ℝ)} {step : PassState ℝ → ℕ → Option (PassState ℝ)}
    (hs : ∀ S k, PassInv n ops S k → k < S.ops.length →
      ∃ S', step S k = some S' ∧ PassInv n ops S' (k + 1))
    (h0 : PassInv n ops { ops := ops, dag := fun _ => [] } 0) (m : ℕ) (hm : m ≤ ops.length) :
    ∃ S, (List.range m).foldlM step { ops := ops, dag := fun _ => [] } = some S ∧
      PassInv n ops S m := by
  induction m with
  | zero => exact ⟨_, rfl, h0⟩
  | succ m ih =>
    obtain ⟨S, h1, h2⟩ := ih (by omega)
    obtain ⟨S', h3, h4⟩ := hs S m h2 (by rw [h2.len]; omega)
    refine ⟨S', ?_, h4⟩
    rw [List.range_succ, List.foldlM_append, h1]
    simp [h3]

theorem PassInv.finish {n m : ℕ} {ops : List (Op ℝ)} {S : PassState ℝ} (hv : Op.ValidL ops)
    (h : PassInv n ops S m) : run (removeIdentities S.ops) = run ops := by
  rw [run_removeIdentities fun o ho => (h.ok o ho).parts, ← h.sem, run_strip hv]

theorem swapReconstruction_correct {n : ℕ} {ops : List (Op ℝ)} (hv : Op.ValidL ops)
    (hp : ∀ e ∈ ops, e.plain = true) (hr : ∀ e ∈ ops, ∀ q ∈ e.usedQ, q < n) :
    ∃ ops', swapReconstruction n ops = some ops' ∧ run ops' = run ops := by
  obtain ⟨S, h1, h2⟩ := PassInv.fold (step := swapRecStep n) (fun S k h hk => swapRec_step h hk)
    (PassInv.init hv hp hr) ops.length (le_refl _)
  exact ⟨_, by rw [swapReconstruction, h1]; rfl, h2.finish hv⟩

end MQT.Opt
