/-
The decision diagram of an operation.

Sources in /repo: src/dd/Operations.cpp 37-59 (`getStandardOperationDD` from the parts), 61-142
(`getStandardOperationDD` of a `StandardOperation`, with inversion), 144-190 (`getDD`),
192-195 (`getInverseDD`); src/ir/Permutation.cpp 18-47 (`apply`); include/mqt-core/ir/operations/
Control.hpp 66-70, 84-95 (the order of controls).

Simplifications: weights are exact; a set of controls is a `Finset` that is sorted before it is
handed to `makeGateDD`; symbolic operations are not modelled.  A missing parameter of an
inverted gate (an out-of-bounds read) is reported as an exception.
-/
import Verif.Common.Res
import Verif.DD.Gate
import Verif.DD.Conj
import Verif.Opt.Elide
import Verif.IR.OpEquals
import Verif.Props.DDBuild
import Verif.Props.DDArith
import Mathlib.Data.List.Sort

set_option autoImplicit false

noncomputable section

open Classical
open Function (update)
open scoped ComplexConjugate

namespace MQT.Sim

open MQT.IR MQT.DD MQT.Opt

/-! ### Model -/

/-- `qc::Permutation`: a `std::map`, as the list of its entries in key order. -/
abbrev Perm := List (ℕ × ℕ)

/-- `Permutation::apply(Qubit)`; `none`: `at` throws. -/
def Perm.apply (p : Perm) (q : ℕ) : Option ℕ := if p = [] then some q else p.lookup q

/-- `Permutation::apply(Targets)`. -/
def Perm.applyT (p : Perm) (ts : List ℕ) : Option (List ℕ) := ts.mapM p.apply

/-- `Permutation::apply(Controls)`. -/
def Perm.applyC (p : Perm) (cs : Finset Ctrl) : Option (Finset Ctrl) :=
  if ∀ c ∈ cs, (p.apply c.1).isSome then some (cs.image fun c => ((p.apply c.1).getD 0, c.2))
  else none

/-- `operator<` on controls (`Neg = false < Pos = true`), as `≤`. -/
def ctrlLe (c d : Ctrl) : Prop := c.1 < d.1 ∨ (c.1 = d.1 ∧ (c.2 = true → d.2 = true))

/-- The controls in iteration order. -/
def ctrlList (cs : Finset Ctrl) : List Ctrl := cs.toList.insertionSort ctrlLe

/-- The five-argument `getStandardOperationDD`. -/
def stdDD (n : ℕ) (ty : OpType) (ps : List ℝ) (cs : Finset Ctrl) (ts : List ℕ) : Res MEdge :=
  if ty.isSingleQubitGate = true then
    match ts, gate1 ty ps with
    | [t], some M =>
      match makeGateDD n M (ctrlList cs) t with
      | some e => .ok e
      | none => .throw
    | _, _ => .throw
  else if ty.isTwoQubitGate = true then
    match ts, gate2 ty ps with
    | [t0, t1], some M =>
      match makeTwoQubitGateDD n M (ctrlList cs) t0 t1 with
      | some e => .ok e
      | none => .throw
    | _, _ => .throw
  else .throw

/-- `getDD` of a standard operation. -/
def getStd (n : ℕ) (p : Perm) (inv : Bool) (o : StdOp ℝ) : Res MEdge :=
  if o.type = .barrier then .ok .one
  else if o.type = .gphase then
    match o.params[0]? with
    | none => .ub
    | some θ =>
      let φ := if inv then -θ else θ
      .ok ⟨.term, ⟨Real.cos φ, Real.sin φ⟩⟩
  else
    match p.applyT o.targets, p.applyC o.controls with
    | some ts, some cs =>
      if inv then
        match ({ o with targets := ts, controls := cs } : StdOp ℝ).ddInvert with
        | none => .throw
        | some o' => stdDD n o'.type o'.params o'.controls o'.targets
      else stdDD n o.type o.params cs ts
    | _, _ => .throw

/-- `Package::multiply` as a step that can fail. -/
def mulRes (x y : MEdge) : Res MEdge :=
  match mmul x y with
  | some e => .ok e
  | none => .ub

mutual
/-- `getDD`. -/
def getDD (n : ℕ) (p : Perm) (inv : Bool) : Op ℝ → Res MEdge
  | .std o => getStd n p inv o
  | .compound ops _ => getDDL n p inv ops .one
  | .measure _ _ => .throw
  | .reset _ => .throw
  | .classic _ op => getDD n p inv op
/-- The loop over the parts of a compound operation. -/
def getDDL (n : ℕ) (p : Perm) (inv : Bool) : List (Op ℝ) → MEdge → Res MEdge
  | [], e => .ok e
  | op :: l, e =>
    (getDD n p inv op).bind fun m =>
      (if inv then mulRes e m else mulRes m e).bind fun e' => getDDL n p inv l e'
end

/-! ### Controls in order -/

theorem ctrlLe_total (a b : Ctrl) : ctrlLe a b ∨ ctrlLe b a := by
  unfold ctrlLe
  rcases lt_trichotomy a.1 b.1 with h | h | h
  · exact Or.inl (Or.inl h)
  · cases ha : a.2 <;> cases hb : b.2 <;> simp [h]
  · exact Or.inr (Or.inl h)

theorem ctrlLe_trans (a b c : Ctrl) (h1 : ctrlLe a b) (h2 : ctrlLe b c) : ctrlLe a c := by
  unfold ctrlLe at *
  rcases h1 with h1 | ⟨h1, h1'⟩ <;> rcases h2 with h2 | ⟨h2, h2'⟩
  · left; omega
  · left; omega
  · left; omega
  · right; exact ⟨h1.trans h2, fun h => h2' (h1' h)⟩

instance : Std.Total ctrlLe := ⟨ctrlLe_total⟩
instance : IsTrans Ctrl ctrlLe := ⟨ctrlLe_trans⟩

theorem mem_ctrlList {cs : Finset Ctrl} {c : Ctrl} : c ∈ ctrlList cs ↔ c ∈ cs := by
  unfold ctrlList
  rw [(List.perm_insertionSort _ _).mem_iff, Finset.mem_toList]

/-- No qubit is used as a control twice. -/
def Distinct (cs : Finset Ctrl) : Prop := ∀ c ∈ cs, ∀ d ∈ cs, c.1 = d.1 → c = d

theorem ctrlList_sorted {cs : Finset Ctrl} (h : Distinct cs) :
    (ctrlList cs).Pairwise (fun c d => c.1 < d.1) := by
  have h1 : (ctrlList cs).Pairwise ctrlLe := List.pairwise_insertionSort _ _
  have h2 : (ctrlList cs).Nodup := by
    unfold ctrlList
    rw [(List.perm_insertionSort _ _).nodup_iff]
    exact cs.nodup_toList
  refine (List.Pairwise.and_mem.1 (h1.and h2)).imp ?_
  rintro c d ⟨hc, hd, h3, h4⟩
  rcases h3 with h3 | ⟨h3, _⟩
  · exact h3
  · exact absurd (h c (mem_ctrlList.1 hc) d (mem_ctrlList.1 hd) h3) h4

/-! ### Products -/

theorem fill_fill {n : ℕ} (s t : Fin n → Bool) (a : Bits) : fill s (fill t a) = fill s a := by
  funext q
  unfold fill
  split_ifs <;> rfl

theorem matVec_matMul (n : ℕ) (A B : Bits → Bits → ℂ) (v : Bits → ℂ) (a : Bits) :
    matVec n (fun a b => matMul n A B a b) v a = matVec n A (fun y => matVec n B v y) a := by
  simp only [matVec_eq, matMul_eq, Finset.sum_mul, Finset.mul_sum, fill_fill]
  rw [Finset.sum_comm]
  refine Finset.sum_congr rfl fun s _ => Finset.sum_congr rfl fun t _ => ?_
  rw [mul_assoc]

/-- The diagram `e` performs `f` on states whose qubits are renamed by `σ`. -/
def Represents (n : ℕ) (σ : Equiv.Perm ℕ) (e : MEdge) (f : State → State) : Prop :=
  MECan n e ∧ ∀ ψ z, matVec n (e.mat n) (ren σ ψ) z = ren σ (f ψ) z

theorem MECan.ok' {n : ℕ} {e : MEdge} (h : MECan n e) : MOk n e := h.2

theorem represents_term (n : ℕ) (σ : Equiv.Perm ℕ) {w : ℂ} (hw : w ≠ 0) :
    Represents n σ ⟨.term, w⟩ (phase w) := by
  refine ⟨⟨fun h => absurd h hw, fun _ => trivial⟩, fun ψ z => ?_⟩
  unfold matVec
  have : ∀ y, (⟨.term, w⟩ : MEdge).mat n z y * ren σ ψ y
      = if ∀ q < n, z q = y q then w * ren σ ψ y else 0 := by
    intro y
    rw [term_mat]
    split_ifs <;> simp
  simp only [this]
  rw [sumB_pick]
  have : low n z z = z := by funext q; simp [low]
  rw [this]
  rfl

theorem Represents.mul {n : ℕ} {σ : Equiv.Perm ℕ} {e e' : MEdge} {f f' : State → State}
    (h : Represents n σ e f) (h' : Represents n σ e' f') :
    ∃ r, mmul e' e = some r ∧ Represents n σ r (fun ψ => f' (f ψ)) := by
  obtain ⟨r, h1, h2, h3⟩ := mmul_spec h'.1.2 h.1.2
  refine ⟨r, h1, h2, fun ψ z => ?_⟩
  have e1 : r.mat n = fun a b => matMul n (e'.mat n) (e.mat n) a b := by
    funext a b; exact h3 a b
  rw [e1, matVec_matMul]
  have e2 : (fun y => matVec n (e.mat n) (ren σ ψ) y) = ren σ (f ψ) := by
    funext y; exact h.2 ψ y
  rw [e2, h'.2]

/-! ### Standard operations -/

/-- Operations for which the diagram is right: well-formed, all qubits are mapped to qubits of the
package as `σ` says, no qubit is a control twice, and a global phase has no controls. -/
structure StdOk (n : ℕ) (p : Perm) (σ : Equiv.Perm ℕ) (o : StdOp ℝ) : Prop where
  wf : o.WF
  den : ∃ f, o.denote = some f
  cov : ∀ q ∈ o.used, p.apply q = some (σ q) ∧ σ q < n
  dis : Distinct o.controls
  gph : o.type = .gphase → o.controls = ∅

theorem applyT_eq {p : Perm} {σ : Equiv.Perm ℕ} {ts : List ℕ}
    (h : ∀ q ∈ ts, p.apply q = some (σ q)) : p.applyT ts = some (ts.map σ) := by
  unfold Perm.applyT
  induction ts with
  | nil => rfl
  | cons t ts ih =>
    rw [List.mapM_cons, h t (by simp), ih fun q hq => h q (List.mem_cons_of_mem _ hq)]
    rfl

theorem applyC_eq {p : Perm} {σ : Equiv.Perm ℕ} {cs : Finset Ctrl}
    (h : ∀ c ∈ cs, p.apply c.1 = some (σ c.1)) :
    p.applyC cs = some (cs.image fun c => (σ c.1, c.2)) := by
  unfold Perm.applyC
  rw [if_pos (fun c hc => by rw [h c hc]; rfl)]
  congr 1
  refine Finset.image_congr fun c hc => ?_
  show ((p.apply c.1).getD 0, c.2) = _
  rw [h c hc]; rfl

/-- What is left of `StdOk` after renaming. -/
structure Placed (n : ℕ) (o : StdOp ℝ) : Prop where
  wf : o.WF
  rng : ∀ q ∈ o.used, q < n
  dis : Distinct o.controls

theorem StdOk.placed {n : ℕ} {p : Perm} {σ : Equiv.Perm ℕ} {o : StdOp ℝ} (h : StdOk n p σ o) :
    Placed n (o.relabel σ) := by
  refine ⟨StdOp.relabel_wf σ.injective.injOn h.wf, ?_, ?_⟩
  · intro q hq
    rw [StdOp.used_relabel] at hq
    unfold StdOp.usedPermuted at hq
    rw [Finset.mem_union, List.mem_toFinset, List.mem_map, Finset.mem_image] at hq
    rcases hq with ⟨r, hr, rfl⟩ | ⟨r, hr, rfl⟩
    · exact (h.cov r (StdOp.mem_used.2 (Or.inl hr))).2
    · exact (h.cov r (StdOp.mem_used.2 (Or.inr hr))).2
  · intro c hc d hd hcd
    simp only [StdOp.relabel, Finset.mem_image] at hc hd
    obtain ⟨c, hc, rfl⟩ := hc
    obtain ⟨d, hd, rfl⟩ := hd
    rw [h.dis c hc d hd (σ.injective hcd)]

/-- Entries of the matrix built for an operation in place. -/
theorem stdDD_spec {n : ℕ} {o : StdOp ℝ} (h : Placed n o) {g : State → State}
    (hg : o.denote = some g) (hb : o.type ≠ .barrier) (hp : o.type ≠ .gphase) :
    ∃ e, stdDD n o.type o.params o.controls o.targets = .ok e ∧ MECan n e ∧
      ∀ ψ z, matVec n (e.mat n) ψ z = g ψ z := by
  have hs := ctrlList_sorted h.dis
  have hl : ∀ c ∈ ctrlList o.controls, c.1 < n := by
    intro c hc
    exact h.rng _ (StdOp.mem_used.2 (Or.inr (Finset.mem_image_of_mem _ (mem_ctrlList.1 hc))))
  have hne : ∀ q ∈ o.targets, ∀ c ∈ ctrlList o.controls, c.1 ≠ q := by
    rintro q hq c hc rfl
    exact h.wf.disj _ hq (Finset.mem_image_of_mem _ (mem_ctrlList.1 hc))
  have hcs : ∀ c, c ∈ o.controls ↔ c ∈ ctrlList o.controls := fun c => mem_ctrlList.symm
  rcases StdOp.denote_cases hg with ⟨hb', _⟩ | ⟨hp', _⟩ | ⟨h1, q, M, e1, e2, rfl⟩ |
    ⟨h2, q0, q1, M, e1, e2, rfl⟩
  · exact absurd hb' hb
  · exact absurd hp' hp
  · have hq : q < n := h.rng _ (StdOp.mem_used.2 (Or.inl (by rw [e1]; simp)))
    obtain ⟨e, h3, h4, h5⟩ := c41_gate_action n M _ q hs hl hq (hne q (by rw [e1]; simp)) _ hcs
    refine ⟨e, ?_, h4, h5⟩
    unfold stdDD
    rw [if_pos h1, e1, e2]
    simp only [h3]
  · have hnd := h.wf.nodup
    rw [e1] at hnd
    have h01 : q0 ≠ q1 := by simpa using hnd
    have hq0 : q0 < n := h.rng _ (StdOp.mem_used.2 (Or.inl (by rw [e1]; simp)))
    have hq1 : q1 < n := h.rng _ (StdOp.mem_used.2 (Or.inl (by rw [e1]; simp)))
    obtain ⟨e, h3, h4, h5⟩ := c41_two_qubit_action n M _ q0 q1 hs hl hq0 hq1 h01
      (hne q0 (by rw [e1]; simp)) (hne q1 (by rw [e1]; simp)) _ hcs
    refine ⟨e, ?_, h4, h5⟩
    have h1 : ¬ o.type.isSingleQubitGate = true := by
      revert h2
      cases o.type <;> simp [OpType.isTwoQubitGate, OpType.isSingleQubitGate]
    unfold stdDD
    rw [if_neg h1, if_pos h2, e1, e2]
    simp only [h3]

theorem getStd_spec {n : ℕ} {p : Perm} {σ : Equiv.Perm ℕ} {o : StdOp ℝ} (h : StdOk n p σ o) :
    ∃ e f, getStd n p false o = .ok e ∧ o.denote = some f ∧ Represents n σ e f := by
  obtain ⟨f, hf⟩ := h.den
  by_cases hb : o.type = .barrier
  · rw [StdOp.denote_barrier hb] at hf
    obtain rfl := Option.some.inj hf
    refine ⟨.one, _, by unfold getStd; rw [if_pos hb], StdOp.denote_barrier hb, ?_⟩
    have := represents_term n σ (w := 1) one_ne_zero
    have e1 : phase 1 = fun ψ : State => ψ := by funext ψ x; simp [phase]
    rw [e1] at this
    exact this
  by_cases hg : o.type = .gphase
  · rw [StdOp.denote_gphase hg, Option.map_eq_some_iff] at hf
    obtain ⟨θ, h1, h2⟩ := hf
    refine ⟨_, f, by unfold getStd; rw [if_neg hb, if_pos hg, h1], ?_, ?_⟩
    · rw [StdOp.denote_gphase hg, h1, ← h2]; rfl
    · rw [← h2, h.gph hg, ctl_empty]
      apply represents_term
      intro h0
      have h1 := congrArg Complex.re h0
      have h2 := congrArg Complex.im h0
      simp only [Bool.false_eq_true, if_false, Complex.zero_re, Complex.zero_im] at h1 h2
      have := Real.sin_sq_add_cos_sq θ
      rw [h1, h2] at this
      norm_num at this
  obtain ⟨g, hg1, hg2⟩ := relabel_denote σ hf
  obtain ⟨e, h1, h2, h3⟩ := stdDD_spec h.placed hg1 hb hg
  refine ⟨e, f, ?_, hf, h2, fun ψ z => ?_⟩
  · unfold getStd
    rw [if_neg hb, if_neg hg, applyT_eq (fun q hq => (h.cov q (StdOp.mem_used.2 (Or.inl hq))).1),
      applyC_eq (fun c hc => (h.cov c.1 (StdOp.mem_used.2
        (Or.inr (Finset.mem_image_of_mem _ hc)))).1)]
    exact h1
  · rw [h3, hg2]

/-! ### Inverses -/

theorem adj_of_entries {n : ℕ} {e e' : MEdge} (h : MECan n e) (h' : MECan n e')
    (hm : ∀ a b, e'.mat n a b = conj (e.mat n b a)) : e' = conjTranspose e := by
  obtain ⟨h1, h2⟩ := c37_conjugate_transpose h
  exact mecan_inj h' h1 (fun a b => by rw [hm, h2])

theorem satL_agree {l : List Ctrl} {a b : Bits} {n : ℕ} {T : ℕ → Prop} (hl : ∀ c ∈ l, c.1 < n)
    (hT : ∀ c ∈ l, T c.1) (h : ∀ q < n, T q → a q = b q) : SatL l a ↔ SatL l b := by
  unfold SatL
  constructor <;> intro hs c hc
  · rw [← h _ (hl c hc) (hT c hc)]; exact hs c hc
  · rw [h _ (hl c hc) (hT c hc)]; exact hs c hc

theorem stdDD_adj {n : ℕ} {o o' : StdOp ℝ} (h : Placed n o) (hi : StdOp.IsInv o o')
    {g : State → State} (hg : o.denote = some g) (hb : o.type ≠ .barrier)
    (hp : o.type ≠ .gphase) {e : MEdge}
    (he : stdDD n o.type o.params o.controls o.targets = .ok e) :
    stdDD n o'.type o'.params o'.controls o'.targets = .ok (conjTranspose e) := by
  have hs := ctrlList_sorted h.dis
  have hl : ∀ c ∈ ctrlList o.controls, c.1 < n := by
    intro c hc
    exact h.rng _ (StdOp.mem_used.2 (Or.inr (Finset.mem_image_of_mem _ (mem_ctrlList.1 hc))))
  have hne : ∀ q ∈ o.targets, ∀ c ∈ ctrlList o.controls, c.1 ≠ q := by
    rintro q hq c hc rfl
    exact h.wf.disj _ hq (Finset.mem_image_of_mem _ (mem_ctrlList.1 hc))
  rw [hi.ctrl]
  rcases StdOp.denote_cases hg with ⟨hb', _⟩ | ⟨hp', _⟩ | ⟨h1, q, M, e1, e2, rfl⟩ |
    ⟨h2, q0, q1, M, e1, e2, rfl⟩
  · exact absurd hb' hb
  · exact absurd hp' hp
  · have hq : q < n := h.rng _ (StdOp.mem_used.2 (Or.inl (by rw [e1]; simp)))
    have hnq := hne q (by rw [e1]; simp)
    obtain ⟨e0, h3, h4, h5⟩ := c41_gate_matrix n M _ q hs hl hq hnq
    obtain ⟨e', h6, h7, h8⟩ := c41_gate_matrix n M.conjTranspose _ q hs hl hq hnq
    have : e0 = e := by
      unfold stdDD at he
      rw [if_pos h1, e1, e2] at he
      simp only [h3] at he
      injection he
    subst this
    obtain ⟨k1, k2, k3⟩ := hi.single h1
    unfold stdDD
    rw [if_pos k1, k2, e1, k3 M e2]
    simp only [h6]
    congr 1
    refine adj_of_entries h4 h7 (fun a b => ?_)
    rw [h8, h5]
    have ha : (∀ q' < n, q' ≠ q → b q' = a q') ↔ ∀ q' < n, q' ≠ q → a q' = b q' :=
      forall₃_congr fun _ _ _ => eq_comm
    simp only [ha]
    by_cases hag : ∀ q' < n, q' ≠ q → a q' = b q'
    · rw [if_pos hag, if_pos hag]
      have := satL_agree (T := fun q' => q' ≠ q) hl hnq hag
      simp only [this]
      by_cases hsat : SatL (ctrlList o.controls) b
      · rw [if_pos hsat, if_pos hsat]; rfl
      · rw [if_neg hsat, if_neg hsat]
        by_cases hab : a q = b q
        · rw [if_pos hab, if_pos hab.symm, map_one]
        · rw [if_neg hab, if_neg (fun h => hab h.symm), map_zero]
    · rw [if_neg hag, if_neg hag, map_zero]
  · have hnd := h.wf.nodup
    rw [e1] at hnd
    have h01 : q0 ≠ q1 := by simpa using hnd
    have hq0 : q0 < n := h.rng _ (StdOp.mem_used.2 (Or.inl (by rw [e1]; simp)))
    have hq1 : q1 < n := h.rng _ (StdOp.mem_used.2 (Or.inl (by rw [e1]; simp)))
    have hn0 := hne q0 (by rw [e1]; simp)
    have hn1 := hne q1 (by rw [e1]; simp)
    obtain ⟨e0, h3, h4, h5⟩ := c41_two_qubit_matrix n M _ q0 q1 hs hl hq0 hq1 h01 hn0 hn1
    have hs2 : ∀ ty : OpType, ty.isTwoQubitGate = true → ¬ ty.isSingleQubitGate = true := by
      intro ty; cases ty <;> simp [OpType.isTwoQubitGate, OpType.isSingleQubitGate]
    have : e0 = e := by
      unfold stdDD at he
      rw [if_neg (hs2 _ h2), if_pos h2, e1, e2] at he
      simp only [h3] at he
      injection he
    subst this
    obtain ⟨k1, k2⟩ := hi.two h2
    have key : ∀ N : Mat2, (∀ a b : Bits, N (a q0, a q1) (b q0, b q1)
          = conj (M (b q0, b q1) (a q0, a q1))) → ∀ e' : MEdge, MECan n e' →
        (∀ a b : Bits, e'.mat n a b = if ∀ q < n, q ≠ q0 → q ≠ q1 → a q = b q then
          if SatL (ctrlList o.controls) a then N (a q0, a q1) (b q0, b q1)
          else if a q0 = b q0 ∧ a q1 = b q1 then 1 else 0 else 0) → e' = conjTranspose e0 := by
      intro N hN e' h7 h8
      refine adj_of_entries h4 h7 (fun a b => ?_)
      rw [h8, h5]
      have ha : (∀ q < n, q ≠ q0 → q ≠ q1 → b q = a q) ↔ ∀ q < n, q ≠ q0 → q ≠ q1 → a q = b q :=
        forall₄_congr fun _ _ _ _ => eq_comm
      simp only [ha]
      by_cases hag : ∀ q < n, q ≠ q0 → q ≠ q1 → a q = b q
      · rw [if_pos hag, if_pos hag]
        have := satL_agree (T := fun q => q ≠ q0 ∧ q ≠ q1) hl (fun c hc => ⟨hn0 c hc, hn1 c hc⟩)
          (fun q hq hT => hag q hq hT.1 hT.2)
        simp only [this]
        by_cases hsat : SatL (ctrlList o.controls) b
        · rw [if_pos hsat, if_pos hsat]; exact hN a b
        · rw [if_neg hsat, if_neg hsat]
          by_cases hab : a q0 = b q0 ∧ a q1 = b q1
          · rw [if_pos hab, if_pos ⟨hab.1.symm, hab.2.symm⟩, map_one]
          · rw [if_neg hab, if_neg (fun h => hab ⟨h.1.symm, h.2.symm⟩), map_zero]
      · rw [if_neg hag, if_neg hag, map_zero]
    unfold stdDD
    rw [if_neg (hs2 _ k1), if_pos k1]
    rcases k2 M e2 with ⟨k3, k4⟩ | ⟨a, b, k3, k4, k5⟩ | k3
    · obtain ⟨e', h6, h7, h8⟩ := c41_two_qubit_matrix n M.conjTranspose _ q0 q1 hs hl hq0 hq1 h01
        hn0 hn1
      rw [k3, e1, k4]
      simp only [h6]
      congr 1
      exact key _ (fun a b => rfl) e' h7 h8
    · rw [e1] at k3
      obtain ⟨rfl, rfl⟩ : q0 = a ∧ q1 = b := by simpa using k3
      obtain ⟨e', h6, h7, h8⟩ := c41_two_qubit_matrix n
        (M.conjTranspose.submatrix Prod.swap Prod.swap) _ q1 q0 hs hl hq1 hq0 h01.symm hn1 hn0
      rw [k4, k5]
      simp only [h6]
      congr 1
      refine key M.conjTranspose (fun a b => rfl) e' h7 (fun a b => ?_)
      rw [h8]
      have ha : (∀ q < n, q ≠ q1 → q ≠ q0 → a q = b q) ↔ ∀ q < n, q ≠ q0 → q ≠ q1 → a q = b q :=
        forall₂_congr fun _ _ => ⟨fun h x y => h y x, fun h x y => h y x⟩
      have hb : (a q1 = b q1 ∧ a q0 = b q0) ↔ (a q0 = b q0 ∧ a q1 = b q1) := and_comm
      simp only [ha, hb]
      rfl
    · rw [e1] at k3; simp at k3

/-- Every gate with a meaning can be inverted by `getStandardOperationDD`. -/
theorem ddInvert_some {o : StdOp ℝ} {g : State → State} (hg : o.denote = some g)
    (hb : o.type ≠ .barrier) (hp : o.type ≠ .gphase) : ∃ o', o.ddInvert = some o' := by
  have fs : OpType.flipInv .s = some .sdg := by decide
  have fsdg : OpType.flipInv .sdg = some .s := by decide
  have ft : OpType.flipInv .t = some .tdg := by decide
  have ftdg : OpType.flipInv .tdg = some .t := by decide
  have fv : OpType.flipInv .v = some .vdg := by decide
  have fvdg : OpType.flipInv .vdg = some .v := by decide
  have fsx : OpType.flipInv .sx = some .sxdg := by decide
  have fsxdg : OpType.flipInv .sxdg = some .sx := by decide
  have fiswap : OpType.flipInv .iswap = some .iswapdg := by decide
  have fiswapdg : OpType.flipInv .iswapdg = some .iswap := by decide
  have fperes : OpType.flipInv .peres = some .peresdg := by decide
  have fperesdg : OpType.flipInv .peresdg = some .peres := by decide
  obtain ⟨ty, ps, cs, ts⟩ := o
  rcases StdOp.denote_cases hg with ⟨hb', _⟩ | ⟨hp', _⟩ | ⟨h1, q, M, e1, e2, rfl⟩ |
    ⟨h2, q0, q1, M, e1, e2, rfl⟩
  · exact absurd hb' hb
  · exact absurd hp' hp
  · simp only at e1 e2 h1
    subst e1
    revert h1 e2
    cases ty <;> rcases ps with _ | ⟨a, _ | ⟨b, _ | ⟨c, l⟩⟩⟩ <;>
      simp [gate1, OpType.isSingleQubitGate, StdOp.ddInvert, StdOp.mapFirst,
        fs, fsdg, ft, ftdg, fv, fvdg, fsx, fsxdg, fiswap, fiswapdg, fperes, fperesdg]
  · simp only at e1 e2 h2
    subst e1
    revert h2 e2
    cases ty <;> rcases ps with _ | ⟨a, _ | ⟨b, _ | ⟨c, l⟩⟩⟩ <;>
      simp [gate2, OpType.isTwoQubitGate, StdOp.ddInvert, StdOp.mapFirst,
        fs, fsdg, ft, ftdg, fv, fvdg, fsx, fsxdg, fiswap, fiswapdg, fperes, fperesdg]

theorem getStd_adj {n : ℕ} {p : Perm} {σ : Equiv.Perm ℕ} {o : StdOp ℝ} (h : StdOk n p σ o)
    {e : MEdge} (he : getStd n p false o = .ok e) :
    getStd n p true o = .ok (conjTranspose e) := by
  obtain ⟨f, hf⟩ := h.den
  by_cases hb : o.type = .barrier
  · unfold getStd at he ⊢
    rw [if_pos hb] at he ⊢
    injection he with he
    subst he
    simp [conjTranspose, ctRec, Edge.one]
  by_cases hg : o.type = .gphase
  · rw [StdOp.denote_gphase hg, Option.map_eq_some_iff] at hf
    obtain ⟨θ, h1, h2⟩ := hf
    unfold getStd at he ⊢
    rw [if_neg hb, if_pos hg, h1] at he ⊢
    injection he with he
    subst he
    simp only [conjTranspose, ctRec]
    congr 2
    simp only [if_true, Bool.false_eq_true, if_false, Real.cos_neg, Real.sin_neg]
    rfl
  obtain ⟨g, hg1, hg2⟩ := relabel_denote σ hf
  have happ := applyT_eq (p := p) (σ := σ) (ts := o.targets)
    (fun q hq => (h.cov q (StdOp.mem_used.2 (Or.inl hq))).1)
  have happc := applyC_eq (p := p) (σ := σ) (cs := o.controls)
    (fun c hc => (h.cov c.1 (StdOp.mem_used.2 (Or.inr (Finset.mem_image_of_mem _ hc)))).1)
  have hb' : (o.relabel σ).type ≠ .barrier := hb
  have hg' : (o.relabel σ).type ≠ .gphase := hg
  obtain ⟨o', ho'⟩ := ddInvert_some hg1 hb' hg'
  unfold getStd at he ⊢
  rw [if_neg hb, if_neg hg, happ, happc] at he ⊢
  simp only [Bool.false_eq_true, if_false] at he
  simp only [if_true]
  change (match (o.relabel σ).ddInvert with
    | none => Res.throw
    | some o' => stdDD n o'.type o'.params o'.controls o'.targets) = _
  rw [ho']
  exact stdDD_adj h.placed (StdOp.ddInvert_isInv ho') hg1 hb' hg' he

/-! ### All operations -/

mutual
/-- Unitary operations (`isUnitary`) for which the diagram is right. -/
def OpOk (n : ℕ) (p : Perm) (σ : Equiv.Perm ℕ) : Op ℝ → Prop
  | .std o => StdOk n p σ o
  | .compound ops _ => OpsOk n p σ ops
  | .measure _ _ => False
  | .reset _ => False
  | .classic _ _ => False
def OpsOk (n : ℕ) (p : Perm) (σ : Equiv.Perm ℕ) : List (Op ℝ) → Prop
  | [] => True
  | op :: l => OpOk n p σ op ∧ OpsOk n p σ l
end

theorem opsOk_iff {n : ℕ} {p : Perm} {σ : Equiv.Perm ℕ} (l : List (Op ℝ)) :
    OpsOk n p σ l ↔ ∀ o ∈ l, OpOk n p σ o := by
  induction l with
  | nil => simp [OpsOk]
  | cons o l ih => rw [OpsOk, ih]; simp

/-- The operation acts as `f` on every state and does nothing else. -/
def Acts (op : Op ℝ) (f : State → State) : Prop := ∀ c, exec op c = some (c.mapSt f)

def ActsL (l : List (Op ℝ)) (f : State → State) : Prop := ∀ c, run l c = some (c.mapSt f)

theorem actsL_nil : ActsL [] (fun ψ => ψ) := fun c => by rw [run_nil]; rfl

theorem actsL_cons {op : Op ℝ} {l : List (Op ℝ)} {f g : State → State} (h : Acts op f)
    (h' : ActsL l g) : ActsL (op :: l) (fun ψ => g (f ψ)) := by
  intro c
  rw [run_cons, h c, Option.bind_some, h']
  rfl

mutual
theorem getDD_spec {n : ℕ} {p : Perm} {σ : Equiv.Perm ℕ} (op : Op ℝ) (h : OpOk n p σ op) :
    ∃ e f, getDD n p false op = .ok e ∧ Acts op f ∧ Represents n σ e f := by
  match op with
  | .std o =>
    obtain ⟨e, f, h1, h2, h3⟩ := getStd_spec (o := o) (by rw [OpOk] at h; exact h)
    exact ⟨e, f, by rw [getDD]; exact h1, fun c => by rw [exec, h2]; rfl, h3⟩
  | .compound ops b =>
    obtain ⟨e, f, h1, h2, h3⟩ := getDDL_spec ops (by rw [OpOk] at h; exact h)
      (e := .one) (f := fun ψ => ψ) (by
        have := represents_term n σ (w := 1) one_ne_zero
        have e1 : phase 1 = fun ψ : State => ψ := by funext ψ x; simp [phase]
        rw [e1] at this
        exact this)
    exact ⟨e, _, by rw [getDD]; exact h1, fun c => by rw [exec]; exact h2 c, h3⟩
  | .measure _ _ => rw [OpOk] at h; exact h.elim
  | .reset _ => rw [OpOk] at h; exact h.elim
  | .classic _ _ => rw [OpOk] at h; exact h.elim
theorem getDDL_spec {n : ℕ} {p : Perm} {σ : Equiv.Perm ℕ} (l : List (Op ℝ)) (h : OpsOk n p σ l)
    {e : MEdge} {f : State → State} (he : Represents n σ e f) :
    ∃ r g, getDDL n p false l e = .ok r ∧ ActsL l g ∧ Represents n σ r (fun ψ => g (f ψ)) := by
  match l with
  | [] => exact ⟨e, _, by rw [getDDL], actsL_nil, he⟩
  | op :: l =>
    rw [OpsOk] at h
    obtain ⟨m, g, h1, h2, h3⟩ := getDD_spec op h.1
    obtain ⟨e', h4, h5⟩ := he.mul h3
    obtain ⟨r, g', h6, h7, h8⟩ := getDDL_spec l h.2 h5
    refine ⟨r, _, ?_, actsL_cons h2 h7, h8⟩
    rw [getDDL, h1]
    simp only [Res.bind, Bool.false_eq_true, if_false]
    unfold mulRes
    rw [h4]
    exact h6
end

theorem ct_mul {n : ℕ} {x y : MEdge} (hx : MECan n x) (hy : MECan n y) {r : MEdge}
    (hr : mmul x y = some r) : mmul (conjTranspose y) (conjTranspose x) = some (conjTranspose r) := by
  obtain ⟨r', h1, h2, h3⟩ := mmul_spec hx.2 hy.2
  rw [hr] at h1
  obtain rfl := Option.some.inj h1
  obtain ⟨kx, mx⟩ := c37_conjugate_transpose hx
  obtain ⟨ky, my⟩ := c37_conjugate_transpose hy
  obtain ⟨q, h4, h5, h6⟩ := mmul_spec ky.2 kx.2
  rw [h4]
  congr 1
  refine adj_of_entries h2 h5 (fun a b => ?_)
  rw [h6, h3, matMul_eq, matMul_eq, map_sum]
  refine Finset.sum_congr rfl fun t _ => ?_
  rw [map_mul, my, mx, mul_comm]
  congr 2
  · apply mat_congr
    · intro q hq; rfl
    · intro q hq; simp [fill, hq]
  · apply mat_congr
    · intro q hq; simp [fill, hq]
    · intro q hq; rfl

mutual
theorem getDD_adj {n : ℕ} {p : Perm} {σ : Equiv.Perm ℕ} (op : Op ℝ) (h : OpOk n p σ op) {e : MEdge}
    (he : getDD n p false op = .ok e) : getDD n p true op = .ok (conjTranspose e) := by
  match op with
  | .std o =>
    rw [getDD] at he ⊢
    rw [OpOk] at h
    exact getStd_adj h he
  | .compound ops b =>
    rw [getDD] at he ⊢
    rw [OpOk] at h
    have h1 : Represents n σ .one (fun ψ => ψ) := by
      have := represents_term n σ (w := 1) one_ne_zero
      have e1 : phase 1 = fun ψ : State => ψ := by funext ψ x; simp [phase]
      rw [e1] at this
      exact this
    have := getDDL_adj ops h h1 he
    have e1 : conjTranspose (Edge.one : MEdge) = .one := by simp [conjTranspose, ctRec, Edge.one]
    rwa [e1] at this
  | .measure _ _ => rw [OpOk] at h; exact h.elim
  | .reset _ => rw [OpOk] at h; exact h.elim
  | .classic _ _ => rw [OpOk] at h; exact h.elim
theorem getDDL_adj {n : ℕ} {p : Perm} {σ : Equiv.Perm ℕ} (l : List (Op ℝ)) (h : OpsOk n p σ l)
    {e : MEdge} {f : State → State} (he : Represents n σ e f) {r : MEdge}
    (hr : getDDL n p false l e = .ok r) :
    getDDL n p true l (conjTranspose e) = .ok (conjTranspose r) := by
  match l with
  | [] =>
    rw [getDDL] at hr ⊢
    injection hr with hr
    rw [hr]
  | op :: l =>
    rw [OpsOk] at h
    obtain ⟨m, g, h1, h2, h3⟩ := getDD_spec op h.1
    obtain ⟨e', h4, h5⟩ := he.mul h3
    have h6 := getDD_adj op h.1 h1
    rw [getDDL, h1] at hr
    rw [getDDL, h6]
    simp only [Res.bind, Bool.false_eq_true, if_false, if_true] at hr ⊢
    unfold mulRes at hr ⊢
    rw [h4] at hr
    rw [ct_mul h3.1 he.1 h4]
    exact getDDL_adj l h.2 h5 hr
end

end MQT.Sim
