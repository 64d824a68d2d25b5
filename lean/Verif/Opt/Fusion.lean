/-
`CircuitOptimizer::singleQubitGateFusion` (`src/circuit_optimizer/CircuitOptimizer.cpp` 179-272).

The code keeps, for every qubit, a deque of pointers into the operation list; the model keeps the
positions, last one first (as in `Verif.Opt.Rewrite`).  Only the last entry is ever read; the
second entry for the same operation that line 267 pushes is left out.

Simplifications: the new `StandardOperation`s are built without the canonicalisation of U gates in
their constructor (treated in C21); the parameters a classically controlled operation carries (its
condition) are left out of the operation that replaces it, which has no meaning anyway.
-/
import Verif.Opt.SwapReconstruction

set_option autoImplicit false
set_option linter.unusedSectionVars false

namespace MQT.Opt

open MQT.IR
open Function (update)

/-- `INVERSE_MAP` (180-182). -/
def inverseType : OpType → Option OpType
  | .i => some .i
  | .x => some .x
  | .y => some .y
  | .z => some .z
  | .h => some .h
  | .s => some .sdg
  | .sdg => some .s
  | .t => some .tdg
  | .tdg => some .t
  | .sx => some .sxdg
  | .sxdg => some .sx
  | .barrier => some .barrier
  | _ => none

/-- `getTargets()`. -/
def Op.lineTargets {P : Type} : Op P → List ℕ
  | .std o => o.targets
  | .compound _ _ => []
  | .measure qs _ => qs
  | .reset qs => qs
  | .classic _ op => op.lineTargets

/-- `getControls()`. -/
def Op.lineControls {P : Type} : Op P → Finset Ctrl
  | .std o => o.controls
  | .classic _ op => op.lineControls
  | _ => ∅

/-- `getParameter()` (see the header for classically controlled operations). -/
def Op.lineParams {P : Type} : Op P → List P
  | .std o => o.params
  | _ => []

/-- `setGate(I)`: everything but the type stays. -/
def setIdentity {P : Type} : Op P → Op P
  | .std o => .std { o with type := .i }
  | e => e

/-- Lines 206-268: what becomes of the last operation `op` on qubit `t` when the single-qubit gate
`it` follows.  `none`: exception; `some none`: the two are not fused; `some (some op')`: `op`
becomes `op'` and `it` becomes an identity. -/
def fuseInto {P : Type} (n : ℕ) (t : ℕ) (it : StdOp P) : Op P → Option (Option (Op P))
  | .compound ps cu =>
    if 1 < ((Finset.range n).filter fun q => q ∈ Op.actsL ps).card then some none
    else match ps.getLast? with
      | none => some (some (.compound [.std it] cu))
      | some l =>
        if inverseType l.type = some it.type then some (some (.compound ps.dropLast cu))
        else some (some (.compound (ps ++ [.std { type := it.type, params := it.params, targets := [t] }]) cu))
  | op =>
    if op.lineControls ≠ ∅ ∨ 1 < op.lineTargets.length then some none
    else if inverseType op.type = some it.type then some (some (setIdentity op))
    else match op.lineTargets with
      | [] => none
      | a :: _ => some (some (.compound
          [.std { type := op.type, params := op.lineParams, targets := [a] },
           .std { type := it.type, params := it.params, targets := [t] }] false))

/-- One iteration of the loop (186-269) for the operation at position `k`; `n` is the size of the
`DAG`; `none` = `std::out_of_range`. -/
def fuseStep {P : Type} (n : ℕ) (S : PassState P) (k : ℕ) : Option (PassState P) :=
  match S.ops[k]? with
  | none => none
  | some (.std it) =>
    if it.controls ≠ ∅ ∨ 1 < it.targets.length then S.add n k it.used
    else match it.targets with
      | [] => none
      | t :: _ =>
        if n ≤ t then none
        else match S.dag t with
        | [] => S.add n k it.used
        | i :: _ =>
          match S.ops[i]? with
          | none => none
          | some op =>
            match fuseInto n t it op with
            | none => none
            | some none => S.add n k it.used
            | some (some op') => some { S with ops := (S.ops.set i op').set k (setIdentity (.std it)) }
  | some e => S.add n k e.usedQ

/-- The whole pass. -/
def singleQubitGateFusion {P : Type} (n : ℕ) (ops : List (Op P)) : Option (List (Op P)) :=
  ((List.range ops.length).foldlM (fuseStep n) { ops := ops, dag := fun _ => [] }).map fun S =>
    removeIdentities S.ops

/-! ### Cancelling a gate with its inverse -/

theorem inverse_undoes {a b : StdOp ℝ} {t : ℕ} (hc : a.controls = ∅) (hc' : b.controls = ∅)
    (hta : a.targets = [t]) (htb : b.targets = [t]) (h : inverseType a.type = some b.type) :
    ∃ f g, a.denote = some f ∧ b.denote = some g ∧ ∀ ψ, g (f ψ) = ψ := by
  obtain ⟨ty, ps, cs, ts⟩ := a
  obtain ⟨ty', ps', cs', ts'⟩ := b
  simp only at hc hc' hta htb h
  subst hc hc' hta htb
  have key : ∀ o' : StdOp ℝ, StdOp.invert ⟨ty, ps, ∅, [t]⟩ = some o' →
      o'.denote = StdOp.denote ⟨ty', ps', ∅, [t]⟩ →
      (∃ f, StdOp.denote ⟨ty, ps, ∅, [t]⟩ = some f) →
      ∃ f g, StdOp.denote ⟨ty, ps, ∅, [t]⟩ = some f ∧ StdOp.denote ⟨ty', ps', ∅, [t]⟩ = some g ∧
        ∀ ψ, g (f ψ) = ψ := by
    rintro o' h1 h2 ⟨f, hf⟩
    obtain ⟨g, hg, h3, -⟩ := (StdOp.invert_isInv h1).undo ⟨by simp, by simp [ctrlQubits]⟩ hf
    exact ⟨f, g, hf, h2 ▸ hg, h3⟩
  cases ty <;> simp only [inverseType, Option.some.injEq, reduceCtorEq] at h <;> subst h <;>
    exact key _ rfl rfl ⟨_, rfl⟩

theorem exec_std {o : StdOp ℝ} {f : State → State} (h : o.denote = some f) (c : Cfg) :
    exec (.std o) c = some (c.mapSt f) := by rw [exec, h]; rfl

/-- A gate followed by its inverse does nothing. -/
theorem run_inverse {a b : StdOp ℝ} {t : ℕ} (hc : a.controls = ∅) (hc' : b.controls = ∅)
    (hta : a.targets = [t]) (htb : b.targets = [t]) (h : inverseType a.type = some b.type) (c : Cfg) :
    run [.std a, .std b] c = some c := by
  obtain ⟨f, g, h1, h2, h3⟩ := inverse_undoes hc hc' hta htb h
  rw [run_cons, exec_std h1, Option.bind_some, run_singleton, exec_std h2]
  simp only [Cfg.mapSt, h3]

/-! ### One fusion -/

/-- An operation that is neither a gate nor a block, on at most one qubit: a measurement or reset of
one qubit, or a classically controlled uncontrolled gate on one qubit. -/
def Solo {P : Type} : Op P → Prop
  | .std _ => False
  | .compound _ _ => False
  | e => e.lineControls = ∅ ∧ e.lineTargets.length ≤ 1

/-- A block containing a "gate" of type measure, reset or classically controlled. -/
def Spoiled {P : Type} (e : Op P) : Prop :=
  ∃ ps cu s, e = .compound ps cu ∧ Op.std s ∈ ps ∧ s.type ∈ [OpType.measure, .reset, .classicControlled]

theorem not_valid_spoiled {s : StdOp ℝ} (h : s.type ∈ [OpType.measure, .reset, .classicControlled]) :
    ¬ (Op.std s).Valid := by
  rw [Op.Valid]
  rintro ⟨-, f, hf⟩
  simp only [List.mem_cons, List.not_mem_nil, or_false] at h
  rcases StdOp.denote_cases hf with ⟨hb, -⟩ | ⟨hg, -⟩ | ⟨hs, -⟩ | ⟨h2, -⟩
  · rcases h with h | h | h <;> rw [h] at hb <;> cases hb
  · rcases h with h | h | h <;> rw [h] at hg <;> cases hg
  · rcases h with h | h | h <;> rw [h] at hs <;> cases hs
  · rcases h with h | h | h <;> rw [h] at h2 <;> cases h2

theorem inverseType_spoiled {ty ty' : OpType} (h : inverseType ty = some ty') :
    ty ∉ [OpType.measure, .reset, .classicControlled] := by
  intro h'
  simp only [List.mem_cons, List.not_mem_nil, or_false] at h'
  rcases h' with rfl | rfl | rfl <;> cases h

/-- Where a listed operation may act: on its qubit, or (an emptied block) nowhere. -/
def OnLine {P : Type} (t : ℕ) (e : Op P) : Prop :=
  t ∈ e.usedQ ∨ ∃ ps cu, e = .compound ps cu ∧ Op.usedQL ps = ∅

/-- What fusing `it` into `op` may do. -/
structure Fused (t : ℕ) (it : StdOp ℝ) (op op' : Op ℝ) : Prop where
  plain : op'.plain = true
  used : op'.usedQ ⊆ {t}
  old : op.usedQ ⊆ {t}
  line : OnLine t op'
  notSolo : ¬ Solo op'
  stays : Spoiled op → Spoiled op'
  sem : op.Valid → (op'.Valid ∧ run [op'] = run [op, .std it]) ∨ (Solo op ∧ Spoiled op')

theorem usedQL_append {P : Type} (l l' : List (Op P)) :
    Op.usedQL (l ++ l') = Op.usedQL l ∪ Op.usedQL l' := by
  induction l with
  | nil => simp [Op.usedQL]
  | cons o l ih => rw [List.cons_append, Op.usedQL, Op.usedQL, ih, Finset.union_assoc]

theorem plainL_append {P : Type} (l l' : List (Op P)) :
    Op.plainL (l ++ l') = (Op.plainL l && Op.plainL l') := by
  induction l with
  | nil => simp [Op.plainL]
  | cons o l ih => rw [List.cons_append, Op.plainL, Op.plainL, ih, Bool.and_assoc]

theorem used_single {P : Type} {o : StdOp P} {t : ℕ} (hc : o.controls = ∅) (ht : o.targets = [t]) :
    o.used = {t} := by
  ext q; rw [StdOp.mem_used, hc, ht]; simp [ctrlQubits]

theorem single_eta {P : Type} {o : StdOp P} {t : ℕ} (hc : o.controls = ∅) (ht : o.targets = [t]) :
    ({ type := o.type, params := o.params, targets := [t] } : StdOp P) = o := by
  obtain ⟨ty, ps, cs, ts⟩ := o
  simp only at hc ht
  subst hc ht
  rfl

/-- A type with an entry in `INVERSE_MAP` belongs to a gate on one target, or to a barrier. -/
theorem std_of_inverseType {e : Op ℝ} {ty : OpType} (h : inverseType e.type = some ty) :
    ∃ s, e = .std s := by
  match e with
  | .std s => exact ⟨s, rfl⟩
  | .compound _ _ => cases h
  | .measure _ _ => cases h
  | .reset _ => cases h
  | .classic _ _ => cases h

theorem inverse_targets {s : StdOp ℝ} {ty : OpType} (hv : (Op.std s).Valid)
    (h : inverseType s.type = some ty) : s.type = .barrier ∨ ∃ q, s.targets = [q] := by
  rw [Op.Valid] at hv
  obtain ⟨-, f, hf⟩ := hv
  rcases StdOp.denote_cases hf with ⟨hb, -⟩ | ⟨hg, -⟩ | ⟨-, q, -, h1, -⟩ | ⟨h2, -⟩
  · exact Or.inl hb
  · rw [hg] at h; cases h
  · exact Or.inr ⟨q, h1⟩
  · exfalso
    generalize s.type = ty' at h h2
    cases ty' <;> first | (exfalso; revert h; simp [inverseType]; done) | (revert h2; decide)

theorem exec_barrier {s : StdOp ℝ} (h : s.type = .barrier) (c : Cfg) : exec (.std s) c = some c := by
  rw [exec_std (StdOp.denote_barrier h)]; rfl

theorem validL_append {l l' : List (Op ℝ)} : Op.ValidL (l ++ l') ↔ Op.ValidL l ∧ Op.ValidL l' := by
  simp only [Op.validL_iff, List.mem_append, or_imp, forall_and]

theorem run_pair_append (l : List (Op ℝ)) (cu : Bool) (e : Op ℝ) :
    run [.compound (l ++ [e]) cu] = run [.compound l cu, e] := by
  funext c
  rw [run_singleton, run_compound, run_append, run_cons, run_compound]

theorem compound_used {n t : ℕ} {ps : List (Op ℝ)} (hr : ∀ q ∈ Op.usedQL ps, q < n)
    (hp : Op.plainL ps = true) (htn : t < n) (hl : t ∈ Op.usedQL ps ∨ Op.usedQL ps = ∅)
    (hc : ¬ 1 < ((Finset.range n).filter fun q => q ∈ Op.actsL ps).card) : Op.usedQL ps ⊆ {t} := by
  rcases hl with hl | hl
  · intro q hq
    rw [Finset.mem_singleton]
    rw [← Op.usedQL_plain ps hp] at hc
    exact Finset.card_le_one.1 (not_lt.1 hc) q (by simp [hr q hq, hq]) t (by simp [htn, hl])
  · rw [hl]; simp

theorem fuse_compound {n t : ℕ} {it : StdOp ℝ} (hit : (Op.std it).Valid) (hc : it.controls = ∅)
    (ht : it.targets = [t]) (htn : t < n) {ps : List (Op ℝ)} {cu : Bool}
    (hp : (Op.compound ps cu).plain = true) (hr : ∀ q ∈ (Op.compound ps cu).usedQ, q < n)
    (hl : OnLine t (Op.compound ps cu)) :
    ∃ r, fuseInto n t it (.compound ps cu) = some r ∧ ∀ op', r = some op' →
      Fused t it (.compound ps cu) op' := by
  rw [Op.plain] at hp
  rw [Op.usedQ] at hr
  have hl' : t ∈ Op.usedQL ps ∨ Op.usedQL ps = ∅ := by
    rcases hl with h | ⟨ps', cu', h, h'⟩
    · rw [Op.usedQ] at h; exact Or.inl h
    · injection h with h1 h2; subst h1; exact Or.inr h'
  rw [fuseInto]
  split_ifs with hcard
  · exact ⟨_, rfl, fun op' h => by cases h⟩
  have hsub := compound_used hr hp htn hl' hcard
  have huit : (Op.std it).usedQ = {t} := by rw [Op.usedQ, used_single hc ht]
  rcases List.eq_nil_or_concat ps with rfl | ⟨ps, l, rfl⟩
  · refine ⟨_, rfl, ?_⟩
    rintro op' h
    injection h with h
    subst h
    refine ⟨rfl, ?_, hsub, Or.inl ?_, fun h => h, ?_, ?_⟩
    · simp [Op.usedQ, Op.usedQL, used_single hc ht]
    · simp [Op.usedQ, Op.usedQL, used_single hc ht]
    · rintro ⟨ps', cu', s, h, h', -⟩
      injection h with h1 h2
      subst h1
      cases h'
    · intro hv
      left
      refine ⟨?_, ?_⟩
      · rw [Op.Valid, Op.ValidL]; exact ⟨hit, trivial⟩
      · exact run_pair_append [] cu _
  · rw [List.concat_eq_append] at *
    rw [List.getLast?_append_of_ne_nil _ (by simp)]
    rw [usedQL_append] at hsub
    rw [plainL_append, Bool.and_eq_true] at hp
    simp only [List.getLast?_singleton]
    split_ifs with hinv
    · refine ⟨_, rfl, ?_⟩
      rintro op' h
      injection h with h
      subst h
      rw [List.dropLast_concat]
      have hps : Op.usedQL ps ⊆ {t} := Finset.union_subset_left hsub
      refine ⟨by rw [Op.plain]; exact hp.1, by rw [Op.usedQ]; exact hps,
        by rw [Op.usedQ, usedQL_append]; exact hsub, ?_, fun h => h, ?_, ?_⟩
      · rcases Finset.subset_singleton_iff.1 hps with h | h
        · exact Or.inr ⟨_, _, rfl, h⟩
        · left; rw [Op.usedQ, h]; simp
      · rintro ⟨ps', cu', s, h, h', h''⟩
        injection h with h1 h2
        subst h1 h2
        rw [List.mem_append, List.mem_singleton] at h'
        rcases h' with h' | rfl
        · exact ⟨_, _, s, rfl, h', h''⟩
        · exact absurd h'' (inverseType_spoiled hinv)
      · intro hv
        rw [Op.Valid, validL_append] at hv
        left
        refine ⟨by rw [Op.Valid]; exact hv.1, ?_⟩
        obtain ⟨s, rfl⟩ := std_of_inverseType hinv
        have hvs : (Op.std s).Valid := (Op.validL_iff _).1 hv.2 _ (by simp)
        rw [Op.type] at hinv
        have e1 : ∀ c, run [.std s, .std it] c = some c := by
          intro c
          by_cases hb : s.type = .barrier
          · rw [hb, inverseType] at hinv
            injection hinv with hinv
            rw [run_cons, exec_barrier hb, Option.bind_some, run_singleton, exec_barrier hinv.symm]
          · obtain ⟨q, hq⟩ := (inverse_targets hvs hinv).resolve_left hb
            have hsu : s.used ⊆ {t} := by
              have := Finset.union_subset_right hsub
              simpa [Op.usedQL, Op.usedQ] using this
            have hqt : q = t := by
              simpa using hsu (StdOp.mem_used.2 (Or.inl (by rw [hq]; simp)))
            subst hqt
            refine run_inverse ?_ hc hq ht hinv c
            rw [Finset.eq_empty_iff_forall_notMem]
            intro x hx
            have hx' : x.1 ∈ ctrlQubits s.controls := Finset.mem_image_of_mem _ hx
            have : x.1 = q := by simpa using hsu (StdOp.mem_used.2 (Or.inr hx'))
            rw [Op.Valid] at hvs
            exact hvs.1.disj q (by rw [hq]; simp) (this ▸ hx')
        funext c
        rw [run_singleton, run_compound, run_cons, run_compound, run_append]
        cases run ps c with
        | none => rfl
        | some d =>
          rw [Option.bind_some]
          have := e1 d
          rw [run_cons] at this
          rw [run_singleton]
          exact this.symm
    · refine ⟨_, rfl, ?_⟩
      rintro op' h
      injection h with h
      subst h
      rw [single_eta hc ht]
      refine ⟨?_, ?_, by rw [Op.usedQ, usedQL_append]; exact hsub, ?_, fun h => h, ?_, ?_⟩
      · rw [Op.plain, plainL_append, plainL_append, hp.1, hp.2]; rfl
      · rw [Op.usedQ, usedQL_append, usedQL_append]
        refine Finset.union_subset hsub ?_
        simp [Op.usedQL, huit]
      · left
        rw [Op.usedQ, usedQL_append]
        simp [Op.usedQL, huit]
      · rintro ⟨ps', cu', s, h, h', h''⟩
        injection h with h1 h2
        subst h1 h2
        exact ⟨_, _, s, rfl, List.mem_append_left _ h', h''⟩
      · intro hv
        rw [Op.Valid] at hv
        left
        refine ⟨?_, run_pair_append _ _ _⟩
        rw [Op.Valid, validL_append]
        exact ⟨hv, by rw [Op.ValidL]; exact ⟨hit, trivial⟩⟩

theorem setIdentity_valid {s : StdOp ℝ} {t : ℕ} (hc : s.controls = ∅) (ht : s.targets = [t]) :
    (setIdentity (.std s)).Valid := by
  rw [setIdentity, Op.Valid]
  exact ⟨⟨by simp [ht], by simp [hc, ctrlQubits]⟩, _,
    StdOp.denote_single_of (q := t) (M := mat1 1 0 0 1) rfl ht rfl⟩

theorem lineQubits_eq {e : Op ℝ} (h : e.bare = true) :
    e.lineQubits = e.lineTargets.toFinset ∪ ctrlQubits e.lineControls := by
  match e with
  | .std o => rfl
  | .compound _ _ => simp [Op.bare] at h
  | .measure _ _ => simp [Op.lineQubits, Op.lineTargets, Op.lineControls, ctrlQubits]
  | .reset _ => simp [Op.lineQubits, Op.lineTargets, Op.lineControls, ctrlQubits]
  | .classic _ op =>
    rw [Op.lineQubits, Op.lineTargets, Op.lineControls]
    rw [Op.bare] at h
    exact lineQubits_eq h

theorem usedQ_bare {e : Op ℝ} (h : e.bare = true) : e.usedQ = e.lineQubits := by
  match e with
  | .std o => rfl
  | .compound _ _ => simp [Op.bare] at h
  | .measure _ _ => rfl
  | .reset _ => rfl
  | .classic _ op => rfl

theorem line_single {t : ℕ} {op : Op ℝ} (hb : op.bare = true) (hl : t ∈ op.usedQ)
    (hc : op.lineControls = ∅) (h1 : op.lineTargets.length ≤ 1) : op.lineTargets = [t] := by
  rw [usedQ_bare hb, lineQubits_eq hb, hc] at hl
  simp only [ctrlQubits, Finset.image_empty, Finset.union_empty, List.mem_toFinset] at hl
  match hop : op.lineTargets with
  | [] => rw [hop] at hl; cases hl
  | [a] => rw [hop] at hl; simp at hl; rw [hl]
  | a :: b :: l => rw [hop] at h1; simp at h1

theorem fuse_other {n t : ℕ} {it : StdOp ℝ} (hit : (Op.std it).Valid) (hc : it.controls = ∅)
    (ht : it.targets = [t]) {op : Op ℝ} (hb : op.bare = true)
    (hl : t ∈ op.usedQ) :
    ∃ r, fuseInto n t it op = some r ∧ ∀ op', r = some op' → Fused t it op op' := by
  have hnc : ∀ ps cu, op ≠ .compound ps cu := by
    rintro ps cu rfl
    simp [Op.bare] at hb
  rw [fuseInto]
  swap
  · exact fun ps cu h => hnc ps cu h
  split_ifs with h1 h2
  · exact ⟨_, rfl, fun op' h => by cases h⟩
  · refine ⟨_, rfl, ?_⟩
    rintro op' h
    injection h with h
    subst h
    push Not at h1
    obtain ⟨s, rfl⟩ := std_of_inverseType h2
    have hts : s.targets = [t] := line_single hb hl h1.1 h1.2
    have hcs : s.controls = ∅ := h1.1
    have hu : (setIdentity (Op.std s)).usedQ = {t} := by rw [setIdentity, Op.usedQ]; exact used_single hcs hts
    refine ⟨rfl, by rw [hu], by rw [Op.usedQ, used_single hcs hts], Or.inl (by rw [hu]; simp),
      fun h => h, ?_, ?_⟩
    · rintro ⟨ps', cu', s', h, -⟩; cases h
    · intro hv
      left
      refine ⟨setIdentity_valid hcs hts, ?_⟩
      funext c
      rw [run_singleton, exec_identity (setIdentity_valid hcs hts) rfl, run_inverse hcs hc hts ht h2]
  · push Not at h1
    have hts := line_single hb hl h1.1 h1.2
    rw [hts]
    refine ⟨_, rfl, ?_⟩
    rintro op' h
    injection h with h
    subst h
    have hu : (Op.compound [.std { type := op.type, params := op.lineParams, targets := [t] },
        .std { type := it.type, params := it.params, targets := [t] }] false : Op ℝ).usedQ = {t} := by
      simp [Op.usedQ, Op.usedQL, StdOp.used, ctrlQubits]
    refine ⟨rfl, by rw [hu], ?_, Or.inl (by rw [hu]; simp), fun h => h, ?_, ?_⟩
    · rw [usedQ_bare hb, lineQubits_eq hb, h1.1, hts]; simp [ctrlQubits]
    · rintro ⟨ps', cu', s', h, -⟩
      exact absurd h (hnc _ _)
    · intro hv
      match op with
      | .std s =>
        left
        rw [single_eta hc ht, Op.type, Op.lineParams, single_eta h1.1 hts]
        refine ⟨?_, ?_⟩
        · rw [Op.Valid, Op.ValidL, Op.ValidL]; exact ⟨hv, hit, trivial⟩
        · rw [run_singleton, run_compound]
      | .compound ps cu => exact absurd rfl (hnc ps cu)
      | .measure qs cs =>
        right
        exact ⟨h1, _, _, _, rfl, by simp only [List.mem_cons]; exact Or.inl rfl, by simp [Op.type]⟩
      | .reset qs =>
        right
        exact ⟨h1, _, _, _, rfl, by simp only [List.mem_cons]; exact Or.inl rfl, by simp [Op.type]⟩
      | .classic p o =>
        right
        exact ⟨h1, _, _, _, rfl, by simp only [List.mem_cons]; exact Or.inl rfl, by simp [Op.type]⟩

theorem bare_of_plain {e : Op ℝ} (hp : e.plain = true) (h : ∀ ps cu, e ≠ .compound ps cu) :
    e.bare = true := by
  match e with
  | .std _ => rfl
  | .compound ps cu => exact absurd rfl (h ps cu)
  | .measure _ _ => rfl
  | .reset _ => rfl
  | .classic _ op => rw [Op.plain] at hp; rw [Op.bare]; exact hp

theorem fuseInto_spec {n t : ℕ} {it : StdOp ℝ} (hit : (Op.std it).Valid) (hc : it.controls = ∅)
    (ht : it.targets = [t]) (htn : t < n) {op : Op ℝ} (hp : op.plain = true)
    (hr : ∀ q ∈ op.usedQ, q < n) (hl : OnLine t op) :
    ∃ r, fuseInto n t it op = some r ∧ ∀ op', r = some op' → Fused t it op op' := by
  by_cases h : ∃ ps cu, op = .compound ps cu
  · obtain ⟨ps, cu, rfl⟩ := h
    exact fuse_compound hit hc ht htn hp hr hl
  · push Not at h
    refine fuse_other hit hc ht (bare_of_plain hp h) ?_
    rcases hl with hl | ⟨ps, cu, rfl, -⟩
    · exact hl
    · exact absurd rfl (h ps cu)

/-! ### The loop -/

/-- A standard operation on no qubit at all (a global phase or an empty barrier). -/
def NoQubit {P : Type} : Op P → Prop
  | .std o => o.controls = ∅ ∧ o.targets = []
  | _ => False

/-- Invariant of the pass after `k` operations. -/
structure FuseInv (n : ℕ) (ops0 : List (Op ℝ)) (S : PassState ℝ) (k : ℕ) : Prop where
  len : S.ops.length = ops0.length
  tail : ∀ j, k ≤ j → S.ops[j]? = ops0[j]?
  plain : ∀ e ∈ S.ops, e.plain = true
  range : ∀ e ∈ S.ops, ∀ q ∈ e.usedQ, q < n
  head : ∀ q i l, S.dag q = i :: l → i < k ∧ ∃ e, S.ops[i]? = some e ∧ OnLine q e
  uniq : ∀ q q' i l l' e, S.dag q = i :: l → S.dag q' = i :: l' → S.ops[i]? = some e →
    q ∉ e.usedQ → q = q'
  done : ∀ j e q, j < k → S.ops[j]? = some e → q ∈ e.usedQ → e.type = .i ∨ ∃ i l, S.dag q = i :: l ∧ j ≤ i
  solo : ∀ e ∈ S.ops, Solo e → e ∈ ops0
  sem : (Op.ValidL S.ops ∧ run S.ops = run ops0) ∨ ((∃ e ∈ S.ops, Spoiled e) ∧ ∃ e ∈ ops0, Solo e)

theorem FuseInv.add {n k : ℕ} {ops0 : List (Op ℝ)} {S : PassState ℝ} (h : FuseInv n ops0 S k)
    {e : Op ℝ} (he : S.ops[k]? = some e) :
    ∃ S', S.add n k e.usedQ = some S' ∧ FuseInv n ops0 S' (k + 1) := by
  have hr := h.range e (List.mem_of_getElem? he)
  refine ⟨{ S with dag := fun q => if q ∈ e.usedQ then k :: S.dag q else S.dag q }, ?_, ?_⟩
  · rw [PassState.add, addToDag, if_pos hr]; rfl
  refine ⟨h.len, fun j hj => h.tail j (by omega), h.plain, h.range, ?_, ?_, ?_, h.solo, h.sem⟩
  · intro q i l hd
    simp only at hd
    split_ifs at hd with hq
    · injection hd with h1 h2
      subst h1
      exact ⟨by omega, e, he, Or.inl hq⟩
    · obtain ⟨h1, h2⟩ := h.head q i l hd
      exact ⟨by omega, h2⟩
  · intro q q' i l l' e' hd hd' he' hq
    simp only at hd hd'
    by_cases hik : i = k
    · subst hik
      rw [he] at he'
      injection he' with he'
      subst he'
      rw [if_neg hq] at hd
      exact absurd (h.head q i l hd).1 (by omega)
    · split_ifs at hd with h1
      · injection hd with h2 h3; exact absurd h2.symm hik
      split_ifs at hd' with h2
      · injection hd' with h3 h4; exact absurd h3.symm hik
      exact h.uniq q q' i l l' e' hd hd' he' hq
  · intro j e' q hj he' hq
    simp only
    rcases Nat.lt_or_ge j k with hlt | hge
    · rcases h.done j e' q hlt he' hq with h1 | ⟨i, l, h1, h2⟩
      · exact Or.inl h1
      · right
        split_ifs with hqe
        · exact ⟨k, _, rfl, by omega⟩
        · exact ⟨i, l, h1, h2⟩
    · have : j = k := by omega
      subst this
      simp only at he'
      rw [he] at he'
      injection he' with he'
      subst he'
      right
      rw [if_pos hq]
      exact ⟨j, _, rfl, le_refl _⟩

/-- The gate `it` at position `k` is absorbed by the last operation on its qubit. -/
theorem FuseInv.absorb {n k i t : ℕ} {l : List ℕ} {ops0 : List (Op ℝ)} {S : PassState ℝ}
    (h : FuseInv n ops0 S k) {it : StdOp ℝ} (hk : S.ops[k]? = some (.std it))
    (hc : it.controls = ∅) (ht : it.targets = [t]) (hit : (Op.std it).Valid)
    (hd : S.dag t = i :: l) {op op' : Op ℝ}
    (hi : S.ops[i]? = some op) (hf : Fused t it op op') :
    FuseInv n ops0 { S with ops := (S.ops.set i op').set k (setIdentity (.std it)) } (k + 1) := by
  have hik : i < k := (h.head t i l hd).1
  have hkl := (List.getElem?_eq_some_iff.1 hk).1
  have hil := (List.getElem?_eq_some_iff.1 hi).1
  have htn : t < n := h.range _ (List.mem_of_getElem? hk) t (by
    rw [Op.usedQ, used_single hc ht]; simp)
  have hI : (setIdentity (.std it)).usedQ = {t} := by rw [setIdentity, Op.usedQ]; exact used_single hc ht
  have mem : ∀ e ∈ (S.ops.set i op').set k (setIdentity (.std it)), e ∈ S.ops ∨ e = op' ∨ e = setIdentity (.std it) := by
    intro e he
    rcases List.mem_or_eq_of_mem_set he with h1 | h1
    · rcases List.mem_or_eq_of_mem_set h1 with h2 | h2
      · exact Or.inl h2
      · exact Or.inr (Or.inl h2)
    · exact Or.inr (Or.inr h1)
  have get : ∀ j, ((S.ops.set i op').set k (setIdentity (.std it)))[j]? =
      if j = k then some (setIdentity (.std it)) else if j = i then some op' else S.ops[j]? := by
    intro j
    by_cases h1 : j = k
    · subst h1; rw [if_pos rfl, List.getElem?_set_self (by simpa using hkl)]
    · rw [if_neg h1, List.getElem?_set_ne (Ne.symm h1)]
      by_cases h2 : j = i
      · subst h2; rw [if_pos rfl, List.getElem?_set_self hil]
      · rw [if_neg h2, List.getElem?_set_ne (Ne.symm h2)]
  have same : ∀ q l', S.dag q = i :: l' → q = t := by
    intro q l' hd'
    by_cases hq : q ∈ op.usedQ
    · simpa using hf.old hq
    · exact h.uniq q t i l' l op hd' hd hi hq
  refine ⟨by simp [h.len], ?_, ?_, ?_, ?_, ?_, ?_, ?_, ?_⟩
  · intro j hj
    rw [get, if_neg (by omega), if_neg (by omega)]
    exact h.tail j (by omega)
  · intro e he
    rcases mem e he with h1 | rfl | rfl
    · exact h.plain e h1
    · exact hf.plain
    · rfl
  · intro e he q hq
    rcases mem e he with h1 | rfl | rfl
    · exact h.range e h1 q hq
    · have := hf.used hq
      rw [Finset.mem_singleton] at this
      subst this; exact htn
    · rw [hI, Finset.mem_singleton] at hq
      subst hq; exact htn
  · intro q i' l' hd'
    obtain ⟨h1, e, h2, h3⟩ := h.head q i' l' hd'
    refine ⟨by omega, ?_⟩
    by_cases hii : i' = i
    · subst hii
      refine ⟨op', by rw [get, if_neg (by omega), if_pos rfl], ?_⟩
      rw [same q l' hd']
      exact hf.line
    · exact ⟨e, by rw [get, if_neg (by omega), if_neg hii]; exact h2, h3⟩
  · intro q q' i' l1 l2 e hd1 hd2 he hq
    have hlt := (h.head q i' l1 hd1).1
    by_cases hii : i' = i
    · subst hii
      rw [same q l1 hd1, same q' l2 hd2]
    · rw [get, if_neg (by omega), if_neg hii] at he
      exact h.uniq q q' i' l1 l2 e hd1 hd2 he hq
  · intro j e q hj he hq
    rw [get] at he
    split_ifs at he with h1 h2
    · injection he with he
      subst he
      exact Or.inl rfl
    · injection he with he
      subst he h2
      have := hf.used hq
      rw [Finset.mem_singleton] at this
      subst this
      exact Or.inr ⟨_, _, hd, le_refl _⟩
    · exact h.done j e q (by omega) he hq
  · intro e he hs
    rcases mem e he with h1 | rfl | rfl
    · exact h.solo e h1 hs
    · exact absurd hs hf.notSolo
    · exact absurd hs id
  · have keep : ∀ e ∈ S.ops, e ≠ .std it → e ≠ op → e ∈ (S.ops.set i op').set k (setIdentity (.std it)) := by
      intro e he h1 h2
      obtain ⟨j, hj⟩ := List.getElem?_of_mem he
      refine List.mem_of_getElem? (i := j) ?_
      rw [get, if_neg, if_neg, hj]
      · rintro rfl; rw [hi] at hj; injection hj with hj; exact h2 hj.symm
      · rintro rfl; rw [hk] at hj; injection hj with hj; exact h1 hj.symm
    have hop' : op' ∈ (S.ops.set i op').set k (setIdentity (.std it)) :=
      List.mem_of_getElem? (i := i) (by rw [get, if_neg (by omega), if_pos rfl])
    rcases h.sem with ⟨hv, hs⟩ | ⟨⟨e, he, hs⟩, hso⟩
    · have hvm := (Op.validL_iff _).1 hv
      have hvop : op.Valid := hvm op (List.mem_of_getElem? hi)
      rcases hf.sem hvop with ⟨hv', hr'⟩ | ⟨hso, hsp⟩
      · left
        have hval : Op.ValidL ((S.ops.set i op').set k (setIdentity (.std it))) := by
          rw [Op.validL_iff]
          intro e he
          rcases mem e he with h1 | rfl | rfl
          · exact hvm e h1
          · exact hv'
          · exact setIdentity_valid hc ht
        refine ⟨hval, ?_⟩
        rw [← hs]
        obtain ⟨A, B, R, e, hA, hB⟩ := split_two hik hi hk
        simp only [e] at hv hval ⊢
        rw [set_two hA hik hB] at hval ⊢
        have hav : ∀ e' ∈ B, Avoids {t} e' := by
          intro e' he'
          obtain ⟨j, j1, j2, j3⟩ := mem_between (A := A) (R := R) (a := op) (b := Op.std it) he'
          rw [← e] at j3
          have hp := Op.usedQ_plain e' (h.plain e' (List.mem_of_getElem? j3))
          by_cases hq : t ∈ e'.usedQ
          · rcases h.done j e' t (by omega) j3 hq with h1 | ⟨i', l', h1, h2⟩
            · exact Or.inl h1
            · rw [hd] at h1; injection h1 with h1; omega
          · right
            rw [← hp, Finset.disjoint_singleton_left]; exact hq
        have hu : it.used = {t} := used_single hc ht
        have hmv : run (B ++ [.std it]) = run (.std it :: B) := by
          have := eqv_move (s := it) (Q := {t}) (Or.inr (by rw [Op.Valid] at hit; exact hit.2))
            (fun _ => by rw [hu]) hav
          unfold Eqv at this
          have hvB : Op.ValidL B := by
            rw [Op.validL_iff]
            intro e' he'
            exact hvm e' (by rw [e]; simp [he'])
          rwa [run_strip, run_strip] at this
          · rw [Op.ValidL]; exact ⟨hit, hvB⟩
          · rw [validL_append]; exact ⟨hvB, by rw [Op.ValidL]; exact ⟨hit, trivial⟩⟩
        have e1 : A ++ op :: (B ++ .std it :: R) = A ++ ([op] ++ ((B ++ [.std it]) ++ R)) := by simp
        have e2 : A ++ ([op] ++ ((.std it :: B) ++ R)) = A ++ ([op, .std it] ++ (B ++ R)) := by simp
        have e3 : A ++ op' :: (B ++ setIdentity (.std it) :: R) =
          A ++ ([op'] ++ (B ++ ([setIdentity (.std it)] ++ R))) := by simp
        have h0 : run ([setIdentity (.std it)] ++ R) = run R := by
          funext c
          rw [List.singleton_append, run_cons, exec_identity (setIdentity_valid hc ht) rfl]; rfl
        rw [e1, e3]
        rw [run_append_congr (rfl : run A = run A) (run_append_congr hr' (run_append_congr
          (rfl : run B = run B) h0)), ← e2]
        exact (run_append_congr rfl (run_append_congr rfl (run_append_congr hmv rfl))).symm
      · right
        exact ⟨⟨op', hop', hsp⟩, op, h.solo op (List.mem_of_getElem? hi) hso, hso⟩
    · right
      refine ⟨?_, hso⟩
      by_cases h2 : e = op
      · subst h2
        exact ⟨op', hop', hf.stays hs⟩
      · refine ⟨e, keep e he ?_ h2, hs⟩
        rintro rfl
        obtain ⟨ps, cu, s, h3, -⟩ := hs
        cases h3

theorem fuse_step {n k : ℕ} {ops0 : List (Op ℝ)} {S : PassState ℝ} (hv : Op.ValidL ops0)
    (h : FuseInv n ops0 S k) (hk : k < S.ops.length) :
    (∃ S', fuseStep n S k = some S' ∧ FuseInv n ops0 S' (k + 1) ∧ ∀ e, ops0[k]? = some e → ¬ NoQubit e) ∨
    (fuseStep n S k = none ∧ ∃ e, ops0[k]? = some e ∧ NoQubit e) := by
  obtain ⟨it, hit⟩ : ∃ it, S.ops[k]? = some it := ⟨_, List.getElem?_eq_getElem hk⟩
  have h0 : ops0[k]? = some it := by rw [← h.tail k (le_refl _)]; exact hit
  have hvit : it.Valid := (Op.validL_iff _).1 hv it (List.mem_of_getElem? h0)
  obtain ⟨Sa, ha1, ha2⟩ := h.add hit
  rw [fuseStep, hit]
  have other : (∀ s, it ≠ .std s) → ∀ e, ops0[k]? = some e → ¬ NoQubit e := by
    intro hne e he hn
    rw [h0] at he
    injection he with he
    subst he
    match it with
    | .std s => exact hne s rfl
    | .compound _ _ => exact hn
    | .measure _ _ => exact hn
    | .reset _ => exact hn
    | .classic _ _ => exact hn
  match it with
  | .compound _ _ => exact Or.inl ⟨Sa, ha1, ha2, other fun s h => by cases h⟩
  | .measure _ _ => exact Or.inl ⟨Sa, ha1, ha2, other fun s h => by cases h⟩
  | .reset _ => exact Or.inl ⟨Sa, ha1, ha2, other fun s h => by cases h⟩
  | .classic _ _ => exact Or.inl ⟨Sa, ha1, ha2, other fun s h => by cases h⟩
  | .std it =>
    have nq : (¬ NoQubit (Op.std it)) → ∀ e, ops0[k]? = some e → ¬ NoQubit e := by
      intro hn e he
      rw [h0] at he
      injection he with he
      subst he
      exact hn
    simp only
    by_cases h1 : it.controls ≠ ∅ ∨ 1 < it.targets.length
    · rw [if_pos h1]
      refine Or.inl ⟨Sa, ha1, ha2, nq ?_⟩
      rintro ⟨a, b⟩
      rcases h1 with h1 | h1
      · exact h1 a
      · rw [b] at h1; simp at h1
    rw [if_neg h1]
    push Not at h1
    match hts : it.targets with
    | [] => exact Or.inr ⟨rfl, _, h0, h1.1, hts⟩
    | a :: b :: l => rw [hts] at h1; simp at h1
    | [t] =>
      have hn := nq (by rintro ⟨-, b⟩; rw [hts] at b; cases b)
      simp only
      have htn : t < n := h.range _ (List.mem_of_getElem? hit) t (by
        rw [Op.usedQ, used_single h1.1 hts]; simp)
      rw [if_neg (by omega)]
      left
      match hd : S.dag t with
      | [] => exact ⟨Sa, ha1, ha2, hn⟩
      | i :: l =>
        obtain ⟨hik, op, hop, hline⟩ := h.head t i l hd
        simp only [hop]
        have hmem := List.mem_of_getElem? hop
        obtain ⟨r, hr1, hr2⟩ := fuseInto_spec (n := n) hvit h1.1 hts htn (h.plain op hmem)
          (h.range op hmem) hline
        rw [hr1]
        match r with
        | none => exact ⟨Sa, ha1, ha2, hn⟩
        | some op' =>
          exact ⟨_, rfl, h.absorb hit h1.1 hts hvit hd hop (hr2 op' rfl), hn⟩

theorem fuse_fold {n : ℕ} {ops : List (Op ℝ)} (hv : Op.ValidL ops)
    (hp : ∀ e ∈ ops, e.plain = true) (hr : ∀ e ∈ ops, ∀ q ∈ e.usedQ, q < n) (m : ℕ)
    (hm : m ≤ ops.length) :
    (∃ S, (List.range m).foldlM (fuseStep n) { ops := ops, dag := fun _ => [] } = some S ∧
      FuseInv n ops S m ∧ ∀ j e, j < m → ops[j]? = some e → ¬ NoQubit e) ∨
    ((List.range m).foldlM (fuseStep n) { ops := ops, dag := fun _ => [] } = none ∧
      ∃ e ∈ ops, NoQubit e) := by
  induction m with
  | zero =>
    refine Or.inl ⟨_, rfl, ⟨rfl, fun _ _ => rfl, hp, hr, ?_, ?_, ?_, fun e he _ => he, Or.inl ⟨hv, rfl⟩⟩, ?_⟩
    · intro q i l h; cases h
    · intro q q' i l l' e h; cases h
    · intro j e q h; omega
    · intro j e h; omega
  | succ m ih =>
    rw [List.range_succ, List.foldlM_append]
    rcases ih (by omega) with ⟨S, h1, h2, h3⟩ | ⟨h1, h2⟩
    · rw [h1]
      rcases fuse_step hv h2 (by rw [h2.len]; omega) with ⟨S', h4, h5, h6⟩ | ⟨h4, e, h5, h6⟩
      · left
        refine ⟨S', by simp [h4], h5, ?_⟩
        intro j e hj he
        rcases Nat.lt_or_ge j m with hlt | hge
        · exact h3 j e hlt he
        · have : j = m := by omega
          subst this; exact h6 e he
      · right
        exact ⟨by simp [h4], e, List.mem_of_getElem? h5, h6⟩
    · right
      rw [h1]
      exact ⟨rfl, h2⟩

/-! ### Removing the identities at the end -/

theorem regroup_valid {cu : Bool} {l : List (Op ℝ)} : Op.ValidL (regroup cu l) ↔ Op.ValidL l := by
  match l with
  | [] => rfl
  | [o] => rfl
  | a :: b :: l => rw [regroup, Op.ValidL, Op.Valid]; simp [Op.ValidL]

theorem removeIdentities_valid {l : List (Op ℝ)} (h : Op.ValidL l) : Op.ValidL (removeIdentities l) := by
  rw [Op.validL_iff] at h ⊢
  intro e he
  rw [removeIdentities, List.mem_flatMap] at he
  obtain ⟨o, ho, he⟩ := he
  have hvo := h o ho
  have single : e ∈ (if o.type = .i then [] else [o]) → e.Valid := by
    intro he
    split_ifs at he
    · cases he
    · rw [List.mem_singleton] at he; subst he; exact hvo
  match o with
  | .compound ps cu =>
    rw [removeIdentities1] at he
    have : Op.ValidL (regroup cu (ps.filter fun o => o.type ≠ .i)) := by
      rw [regroup_valid, Op.validL_iff]
      intro e' he'
      rw [Op.Valid, Op.validL_iff] at hvo
      exact hvo e' (List.mem_filter.1 he').1
    exact (Op.validL_iff _).1 this e he
  | .std _ => exact single he
  | .measure _ _ => exact single he
  | .reset _ => exact single he
  | .classic _ _ => exact single he

theorem removeIdentities_spoiled {l : List (Op ℝ)} {e : Op ℝ} (he : e ∈ l) (hs : Spoiled e) :
    ¬ Op.ValidL (removeIdentities l) := by
  intro hv
  obtain ⟨ps, cu, s, rfl, h1, h2⟩ := hs
  have : Op.ValidL (regroup cu (ps.filter fun o => o.type ≠ .i)) := by
    rw [Op.validL_iff]
    intro e' he'
    refine (Op.validL_iff _).1 hv e' ?_
    rw [removeIdentities, List.mem_flatMap]
    exact ⟨_, he, he'⟩
  rw [regroup_valid, Op.validL_iff] at this
  refine not_valid_spoiled h2 (this _ (List.mem_filter.2 ⟨h1, ?_⟩))
  simp only [List.mem_cons, List.not_mem_nil, or_false] at h2
  rcases h2 with h | h | h <;> simp [Op.type, h]

/-- The whole pass: it fails exactly on circuits with a standard operation on no qubit at all;
otherwise its result either has the meaning of the input or contains an operation without
meaning, and the latter only if the input has a measurement, reset or classically controlled
operation on a single qubit. -/
theorem fusion_correct {n : ℕ} {ops : List (Op ℝ)} (hv : Op.ValidL ops)
    (hp : ∀ e ∈ ops, e.plain = true) (hr : ∀ e ∈ ops, ∀ q ∈ e.usedQ, q < n) :
    (singleQubitGateFusion n ops = none ∧ ∃ e ∈ ops, NoQubit e) ∨
    ∃ ops', singleQubitGateFusion n ops = some ops' ∧ (∀ e ∈ ops, ¬ NoQubit e) ∧
      ((Op.ValidL ops' ∧ run ops' = run ops) ∨ (¬ Op.ValidL ops' ∧ ∃ e ∈ ops, Solo e)) := by
  rcases fuse_fold hv hp hr ops.length (le_refl _) with ⟨S, h1, h2, h3⟩ | ⟨h1, h2⟩
  · right
    refine ⟨removeIdentities S.ops, by rw [singleQubitGateFusion, h1]; rfl, ?_, ?_⟩
    · intro e he
      obtain ⟨j, hj⟩ := List.getElem?_of_mem he
      exact h3 j e (List.getElem?_eq_some_iff.1 hj).1 hj
    · rcases h2.sem with ⟨a, b⟩ | ⟨⟨e, a, b⟩, c⟩
      · left
        refine ⟨removeIdentities_valid a, ?_⟩
        rw [run_removeIdentities, run_strip a, b]
        intro o ho
        have := (Op.validL_iff _).1 a o ho
        match o with
        | .compound l b => rw [Op.Valid] at this; exact this
        | .std _ => trivial
        | .measure _ _ => trivial
        | .reset _ => trivial
        | .classic _ _ => trivial
      · exact Or.inr ⟨removeIdentities_spoiled a b, c⟩
  · exact Or.inl ⟨by rw [singleQubitGateFusion, h1]; rfl, h2⟩

end MQT.Opt
