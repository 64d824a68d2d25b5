/-
Kronecker products of decision diagrams.

Source in /repo: include/mqt-core/dd/Package.hpp 1395-1490 (`kronecker`,
`kronecker2`).  The compute table is left out here; that its key does not contain
the number of qubits of the right operand is treated in `Verif.Props.DDKron`.
-/
import Verif.DD.Add

set_option autoImplicit false

noncomputable section

open Classical

namespace MQT.DD

open MQT.IR (Bits State)

/-! ### Model -/

/-- `kronecker2` for vectors on the left edge with the given node and weight. -/
def kronVRec (incIdx : Bool) (y : VEdge) : VNode → ℂ → VEdge
  | .term, xw => if xw = 0 ∨ y.w = 0 then .zero else ⟨y.p, xw * y.w⟩
  | .node v w c, xw =>
    if xw = 0 ∨ y.w = 0 then .zero
    else
      match y.p with
      | .term => ⟨.node v w c, xw * y.w⟩
      | .node yv _ _ =>
        let e := makeV (if incIdx then v + (yv + 1) else v) (fun i => kronVRec incIdx y (c i) (w i))
        ⟨e.p, xw * y.w⟩

/-- `kronecker` for vectors. -/
def kronV (x y : VEdge) (incIdx : Bool := true) : VEdge := (kronVRec incIdx y x.p x.w).lookup

/-- The amount by which `kronecker2` raises the levels of the left matrix. -/
def kronShift (y : MEdge) (yNumQubits : ℕ) (incIdx : Bool) : ℕ :=
  if incIdx then
    match y.p with
    | .term => yNumQubits
    | .node yv _ _ => yv + 1
  else 0

/-- `kronecker2` for matrices (for a left edge that is an identity the answer is the
right operand). -/
def kronMRec (incIdx : Bool) (yNumQubits : ℕ) (y : MEdge) : MNode → ℂ → MEdge
  | .term, xw => if xw = 0 ∨ y.w = 0 then .zero else ⟨y.p, xw * y.w⟩
  | .node v w c, xw =>
    if xw = 0 ∨ y.w = 0 then .zero
    else
      let e := makeM (v + kronShift y yNumQubits incIdx)
        (fun i => kronMRec incIdx yNumQubits y (c i) (w i))
      ⟨e.p, xw * y.w⟩

/-- `kronecker` for matrices. -/
def kronM (x y : MEdge) (yNumQubits : ℕ) (incIdx : Bool := true) : MEdge :=
  (kronMRec incIdx yNumQubits y x.p x.w).lookup

/-! ### Vectors -/

/-- The assignment seen by the left operand. -/
def shiftBits (m : ℕ) (z : Bits) : Bits := fun q => z (q + m)

theorem makeV_w (v : ℕ) (e : Bool → VEdge) : (makeV v e).w = vtop (fun b => (e b).w) := by
  unfold makeV
  rw [vNormalize_eq]
  split_ifs with h
  · rw [h]; rfl
  · rfl

theorem mNormalize_w (v : ℕ) (e : RC → MEdge) : (mNormalize v e).w = mtop (fun b => (e b).w) := by
  rw [mNormalize_eq]
  split_ifs with h
  · rw [h]; rfl
  · rfl

theorem skipId_w (r : MEdge) : (skipId r).w = r.w := by
  unfold skipId
  cases r.p with
  | term => rfl
  | node v w c => simp only; split_ifs <;> rfl

theorem makeM_w (v : ℕ) (e : RC → MEdge) : (makeM v e).w = mtop (fun b => (e b).w) := by
  unfold makeM
  rw [skipId_w, mNormalize_w]

theorem kronVRec_w (incIdx : Bool) (y : VEdge) (p : VNode) (xw : ℂ) :
    (kronVRec incIdx y p xw).w = xw * y.w := by
  cases p with
  | term =>
    rw [kronVRec]
    split_ifs with h
    · rcases h with h | h <;> simp [h]
    · rfl
  | node v w c =>
    rw [kronVRec]
    by_cases h : xw = 0 ∨ y.w = 0
    · rw [if_pos h]; rcases h with h | h <;> simp [h]
    · rw [if_neg h]; cases y.p <;> rfl

theorem kronVRec_spec {m : ℕ} {y : VEdge} (hy : VOk (m + 1) y) (p : VNode) (xw : ℂ) (n : ℕ)
    (hx : VECan n ⟨p, xw⟩) :
    VOk (n + (m + 1)) (kronVRec true y p xw) ∧
      ∀ z, (kronVRec true y p xw).vec z
        = (⟨p, xw⟩ : VEdge).vec (shiftBits (m + 1) z) * y.vec z := by
  induction p generalizing n xw with
  | term =>
    rw [kronVRec]
    split_ifs with h
    · refine ⟨VOk.zero _, fun z => ?_⟩
      rcases h with h | h <;> simp [Edge.vec, h]
    · push Not at h
      refine ⟨fun _ => ?_, fun z => ?_⟩
      · have : n = 0 := hx.2 h.1
        subst this
        rw [Nat.zero_add]
        exact hy h.2
      · simp only [Edge.vec, vval]; ring
  | node v w c ih =>
    rw [kronVRec]
    by_cases h : xw = 0 ∨ y.w = 0
    · rw [if_pos h]
      refine ⟨VOk.zero _, fun z => ?_⟩
      rcases h with h | h <;> simp [Edge.vec, h]
    · rw [if_neg h]
      push Not at h
      obtain ⟨rfl, h2, h3⟩ := hx.2 h.1
      obtain ⟨wy, cy, hpy, _, _⟩ := (hy h.2).cases
      rw [hpy]
      simp only [if_true]
      have hch := fun b => ih b (w b) v (h3 b)
      have hw : (makeV (v + (m + 1)) (fun i => kronVRec true y (c i) (w i))).w = y.w := by
        rw [makeV_w]
        have : (fun b => (kronVRec true y (c b) (w b)).w) = fun b => y.w * w b := by
          funext b; rw [kronVRec_w, mul_comm]
        rw [this, vtop_smul, h2, mul_one]
      have hcan := makeV_can (fun b => (hch b).1)
      refine ⟨fun _ => ?_, fun z => ?_⟩
      · have := hcan.2 (by rw [hw]; exact h.2)
        rwa [show v + 1 + (m + 1) = v + (m + 1) + 1 by omega]
      · have e : (⟨(makeV (v + (m + 1)) (fun i => kronVRec true y (c i) (w i))).p, xw * y.w⟩ :
            VEdge).vec z
            = xw * (makeV (v + (m + 1)) (fun i => kronVRec true y (c i) (w i))).vec z := by
          simp only [Edge.vec, hw]; ring
        rw [e, makeV_vec, (hch (z (v + (m + 1)))).2]
        simp only [Edge.vec, vval, shiftBits]
        ring

/-- With a scalar on the right only the weight changes. -/
theorem kronVRec_scalar {y : VEdge} (hy : VOk 0 y) (p : VNode) (xw : ℂ) (n : ℕ)
    (hx : VECan n ⟨p, xw⟩) (i : Bool) :
    VOk n (kronVRec i y p xw) ∧
      ∀ z, (kronVRec i y p xw).vec z = (⟨p, xw⟩ : VEdge).vec z * y.vec z := by
  by_cases h : xw = 0 ∨ y.w = 0
  · have e : kronVRec i y p xw = .zero := by
      cases p <;> rw [kronVRec, if_pos h]
    rw [e]
    refine ⟨VOk.zero _, fun z => ?_⟩
    rcases h with h | h <;> simp [Edge.vec, h]
  · have h' := h
    push Not at h'
    have hyp := (hy h'.2).zero_cases
    have e : kronVRec i y p xw = ⟨p, xw * y.w⟩ := by
      cases p with
      | term => rw [kronVRec, if_neg h, hyp]
      | node v w c => rw [kronVRec, if_neg h, hyp]
    rw [e]
    refine ⟨fun _ => hx.2 h'.1, fun z => ?_⟩
    simp only [Edge.vec, hyp, vval]; ring

/-! ### Matrices -/

theorem kronMRec_w (incIdx : Bool) (k : ℕ) (y : MEdge) (p : MNode) (xw : ℂ) :
    (kronMRec incIdx k y p xw).w = xw * y.w := by
  cases p with
  | term =>
    rw [kronMRec]
    split_ifs with h
    · rcases h with h | h <;> simp [h]
    · rfl
  | node v w c =>
    rw [kronMRec]
    split_ifs with h
    · rcases h with h | h <;> simp [h]
    · rfl

theorem mval_term_shift {n m : ℕ} {y : MEdge} (hy : MOk m y) (a b : Bits) :
    y.mat (n + m) a b = (if ∀ q < n, shiftBits m a q = shiftBits m b q then 1 else 0)
      * y.mat m a b := by
  rw [mat_lift hy (Nat.le_add_left m n)]
  have : (∀ q, m ≤ q → q < n + m → a q = b q) ↔ ∀ q < n, shiftBits m a q = shiftBits m b q := by
    constructor
    · intro h q hq; exact h (q + m) (by omega) (by omega)
    · intro h q h1 h2
      have := h (q - m) (by omega)
      simp only [shiftBits] at this
      rwa [Nat.sub_add_cancel h1] at this
  simp only [this]
  split_ifs <;> simp

theorem kronMRec_spec {m : ℕ} {y : MEdge} (hy : MOk m y) (hs : y.w ≠ 0 → kronShift y m true = m)
    (p : MNode) (xw : ℂ) (n : ℕ) (hx : MECan n ⟨p, xw⟩) :
    MOk (n + m) (kronMRec true m y p xw) ∧
      ∀ a b, (kronMRec true m y p xw).mat (n + m) a b
        = (⟨p, xw⟩ : MEdge).mat n (shiftBits m a) (shiftBits m b) * y.mat m a b := by
  induction p generalizing n xw with
  | term =>
    rw [kronMRec]
    split_ifs with h
    · refine ⟨MOk.zero _, fun a b => ?_⟩
      rcases h with h | h <;> simp [Edge.mat, h]
    · push Not at h
      refine ⟨fun _ => MOk.mono (Nat.le_add_left m n) (hy h.2), fun a b => ?_⟩
      rw [term_mat' xw]
      have := mval_term_shift (n := n) hy a b
      have e : (⟨y.p, xw * y.w⟩ : MEdge).mat (n + m) a b = xw * y.mat (n + m) a b := by
        simp only [Edge.mat]; ring
      rw [e, this]
      ring
  | node v w c ih =>
    rw [kronMRec]
    split_ifs with h
    · refine ⟨MOk.zero _, fun a b => ?_⟩
      rcases h with h | h <;> simp [Edge.mat, h]
    · push Not at h
      obtain ⟨h1, h2, h3, h4⟩ := hx.2 h.1
      rw [hs h.2]
      simp only
      have hch := fun b => ih b (w b) v (h4 b)
      have hw : (makeM (v + m) (fun i => kronMRec true m y (c i) (w i))).w = y.w := by
        rw [makeM_w]
        have : (fun b => (kronMRec true m y (c b) (w b)).w) = fun b => y.w * w b := by
          funext b; rw [kronMRec_w, mul_comm]
        rw [this, mtop_smul, h2, mul_one]
      have hcan := makeM_can (fun b => (hch b).1)
      have hok : MOk (v + m + 1)
          ⟨(makeM (v + m) (fun i => kronMRec true m y (c i) (w i))).p, xw * y.w⟩ :=
        fun _ => hcan.2 (by rw [hw]; exact h.2)
      have hle : v + m + 1 ≤ n + m := by omega
      refine ⟨hok.up hle, fun a b => ?_⟩
      have hxo : MOk (v + 1) ⟨.node v w c, xw⟩ := fun _ => ⟨Nat.lt_succ_self v, h2, h3, h4⟩
      rw [mat_lift hok hle, mat_lift hxo (show v + 1 ≤ n by omega)]
      have hiff : (∀ q, v + m + 1 ≤ q → q < n + m → a q = b q) ↔
          ∀ q, v + 1 ≤ q → q < n → shiftBits m a q = shiftBits m b q := by
        constructor
        · intro h q h1 h2; exact h (q + m) (by omega) (by omega)
        · intro h q h1 h2
          have := h (q - m) (by omega) (by omega)
          simp only [shiftBits] at this
          rwa [Nat.sub_add_cancel (by omega)] at this
      simp only [hiff]
      split_ifs with hag
      · have e : (⟨(makeM (v + m) (fun i => kronMRec true m y (c i) (w i))).p, xw * y.w⟩ :
            MEdge).mat (v + m + 1) a b
            = xw * (makeM (v + m) (fun i => kronMRec true m y (c i) (w i))).mat (v + m + 1) a b := by
          simp only [Edge.mat, hw]; ring
        rw [e, makeM_mat (fun b => (hch b).1), (hch (a (v + m), b (v + m))).2, mat_succ]
        simp only [expand, if_true, shiftBits]
        ring
      · simp
where
  term_mat' (w : ℂ) {n : ℕ} {a b : Bits} :
      (⟨.term, w⟩ : MEdge).mat n a b = w * (if ∀ q < n, a q = b q then 1 else 0) := by
    unfold Edge.mat
    rw [mval_term]

theorem kronV_spec {n m : ℕ} {x y : VEdge} (hx : VECan n x) (hy : VECan m y) :
    VECan (n + m) (kronV x y) ∧
      ∀ z, (kronV x y).vec z = x.vec (shiftBits m z) * y.vec z := by
  unfold kronV
  cases m with
  | zero =>
    obtain ⟨h1, h2⟩ := kronVRec_scalar hy.ok x.p x.w n hx true
    refine ⟨h1.lookup, fun z => ?_⟩
    rw [lookup_vec, h2]
    rfl
  | succ m =>
    obtain ⟨h1, h2⟩ := kronVRec_spec hy.ok x.p x.w n hx
    refine ⟨h1.lookup, fun z => ?_⟩
    rw [lookup_vec, h2]

/-! ### The compute table of `kronecker2` for matrices -/

/-- A compute table that never forgets: nodes of both operands to the stored edge
(Package.hpp 1459-1462, 1487). -/
abbrev KTable := MNode → MNode → Option MEdge

/-- `kronecker2` for matrices with the table threaded through (Package.hpp 1423-1490); the
four successors are visited in index order. -/
def kronMT (incIdx : Bool) (yNumQubits : ℕ) (y : MEdge) : MNode → ℂ → KTable → MEdge × KTable
  | .term, xw, t => (if xw = 0 ∨ y.w = 0 then .zero else ⟨y.p, xw * y.w⟩, t)
  | .node v w c, xw, t =>
    if xw = 0 ∨ y.w = 0 then (.zero, t)
    else
      match t (.node v w c) y.p with
      | some r => (⟨r.p, xw * y.w⟩, t)
      | none =>
        let r0 := kronMT incIdx yNumQubits y (c (false, false)) (w (false, false)) t
        let r1 := kronMT incIdx yNumQubits y (c (false, true)) (w (false, true)) r0.2
        let r2 := kronMT incIdx yNumQubits y (c (true, false)) (w (true, false)) r1.2
        let r3 := kronMT incIdx yNumQubits y (c (true, true)) (w (true, true)) r2.2
        let e := makeM (v + kronShift y yNumQubits incIdx)
          (fun i => if i = (false, false) then r0.1 else if i = (false, true) then r1.1
            else if i = (true, false) then r2.1 else r3.1)
        (⟨e.p, xw * y.w⟩,
          fun p q => if p = .node v w c ∧ q = y.p then some e else r3.2 p q)

/-- Every stored node is the one `kronecker2` computes for these two nodes and these
settings. -/
def KTable.Ok (incIdx : Bool) (k : ℕ) (t : KTable) : Prop :=
  ∀ p q r, t p q = some r → r.p = (kronMRec incIdx k ⟨q, 1⟩ p 1).p

theorem makeM_p_smul (v : ℕ) {z : ℂ} (hz : z ≠ 0) (e f : RC → MEdge)
    (hw : ∀ b, (f b).w = z * (e b).w) (hp : ∀ b, (e b).w ≠ 0 → (f b).p = (e b).p) :
    (makeM v f).p = (makeM v e).p := by
  have ht : mtop (fun b => (f b).w) = z * mtop (fun b => (e b).w) := by
    rw [← mtop_smul]; congr 1; funext b; exact hw b
  have key : (mNormalize v f).p = (mNormalize v e).p := by
    rw [mNormalize_eq, mNormalize_eq, ht]
    by_cases h0 : mtop (fun b => (e b).w) = 0
    · rw [if_pos h0, if_pos (by rw [h0, mul_zero])]
    · rw [if_neg h0, if_neg (mul_ne_zero hz h0)]
      simp only [Node.node.injEq, true_and]
      constructor
      · funext b
        rw [hw b, mul_div_mul_left _ _ hz]
      · funext b
        by_cases hb : (e b).w = 0
        · simp [hw b, hb]
        · simp only [hw b, mul_eq_zero, hz, hb, or_self, if_false]
          exact hp b hb
  unfold makeM skipId
  rw [key]
  cases h : (mNormalize v e).p with
  | term => simp only [h, key]
  | node u w c =>
    simp only
    split_ifs
    · rfl
    · rw [h, key, h]

/-- The node of a Kronecker product does not depend on the weights of the operands. -/
theorem kronMRec_p (i : Bool) (k : ℕ) (q p : MNode) (xw yw : ℂ) (hx : xw ≠ 0) (hy : yw ≠ 0) :
    (kronMRec i k ⟨q, yw⟩ p xw).p = (kronMRec i k ⟨q, 1⟩ p 1).p := by
  induction p generalizing xw with
  | term => simp [kronMRec, hx, hy]
  | node v w c ih =>
    rw [kronMRec, kronMRec, if_neg (by simp [hx, hy]), if_neg (by simp)]
    simp only
    refine makeM_p_smul _ hy _ _ (fun b => ?_) (fun b hb => ?_)
    · rw [kronMRec_w, kronMRec_w]; ring
    · have hwb : w b ≠ 0 := by
        intro h; apply hb; rw [kronMRec_w, h, zero_mul]
      have h1 := ih b (w b) hwb
      rw [h1]
      have := ih b (w b) hwb
      by_cases h0 : yw = 1
      · subst h0; rw [← this]
      · exact (kronMRec_p_one i k q (c b) (w b) hwb).symm
where
  kronMRec_p_one (i : Bool) (k : ℕ) (q p : MNode) (xw : ℂ) (hx : xw ≠ 0) :
      (kronMRec i k ⟨q, 1⟩ p xw).p = (kronMRec i k ⟨q, 1⟩ p 1).p := by
    cases p with
    | term => simp [kronMRec, hx]
    | node v w c => rw [kronMRec, kronMRec, if_neg (by simp [hx]), if_neg (by simp)]

/-- As long as `yNumQubits` and `incIdx` stay the same, the table does not change any
result. -/
theorem kronMT_spec {i : Bool} {k : ℕ} (y : MEdge) (p : MNode) (xw : ℂ) (t : KTable)
    (ht : t.Ok i k) :
    (kronMT i k y p xw t).1 = kronMRec i k y p xw ∧ (kronMT i k y p xw t).2.Ok i k := by
  induction p generalizing xw t with
  | term => exact ⟨rfl, ht⟩
  | node v w c ih =>
    rw [kronMT, kronMRec]
    by_cases h : xw = 0 ∨ y.w = 0
    · rw [if_pos h, if_pos h]; exact ⟨rfl, ht⟩
    · rw [if_neg h, if_neg h]
      have h' := h
      push Not at h'
      have hnode := kronMRec_p i k y.p (.node v w c) 1 y.w one_ne_zero h'.2
      rw [kronMRec, if_neg (by simp [h'.2])] at hnode
      simp only at hnode
      cases hl : t (.node v w c) y.p with
      | some r =>
        refine ⟨?_, ht⟩
        have := ht _ _ _ hl
        simp only
        rw [this, ← hnode]
      | none =>
        simp only
        obtain ⟨a0, b0⟩ := ih (false, false) (w (false, false)) t ht
        generalize kronMT i k y (c (false, false)) (w (false, false)) t = r0 at a0 b0 ⊢
        obtain ⟨a1, b1⟩ := ih (false, true) (w (false, true)) r0.2 b0
        generalize kronMT i k y (c (false, true)) (w (false, true)) r0.2 = r1 at a1 b1 ⊢
        obtain ⟨a2, b2⟩ := ih (true, false) (w (true, false)) r1.2 b1
        generalize kronMT i k y (c (true, false)) (w (true, false)) r1.2 = r2 at a2 b2 ⊢
        obtain ⟨a3, b3⟩ := ih (true, true) (w (true, true)) r2.2 b2
        generalize kronMT i k y (c (true, true)) (w (true, true)) r2.2 = r3 at a3 b3 ⊢
        have hf : (fun i => if i = (false, false) then r0.1 else if i = (false, true) then r1.1
            else if i = (true, false) then r2.1 else r3.1)
            = fun j => kronMRec i k y (c j) (w j) := by
          funext j
          obtain ⟨j1, j2⟩ := j
          cases j1 <;> cases j2 <;> simp [a0, a1, a2, a3]
        rw [hf]
        refine ⟨rfl, fun p q r hr => ?_⟩
        simp only at hr
        by_cases hpq : p = .node v w c ∧ q = y.p
        · rw [if_pos hpq] at hr
          obtain ⟨rfl, rfl⟩ := hpq
          rw [← Option.some.inj hr]
          exact hnode
        · rw [if_neg hpq] at hr
          exact b3 p q r hr

/-- After a call on two non-zero operands, the left one being a node, the table answers any
further call on the same two nodes, whatever number of qubits is passed. -/
theorem kronMT_hit (i j : Bool) (k l : ℕ) (y : MEdge) {v : ℕ} {w : RC → ℂ} {c : RC → MNode}
    {xw : ℂ} (hx : xw ≠ 0) (hy : y.w ≠ 0) (t : KTable) :
    (kronMT j l y (.node v w c) xw (kronMT i k y (.node v w c) xw t).2).1
      = (kronMT i k y (.node v w c) xw t).1 := by
  rw [kronMT, if_neg (by simp [hx, hy])]
  rw [kronMT, if_neg (by simp [hx, hy])]
  cases hl : t (.node v w c) y.p with
  | some r => simp only [hl]
  | none => simp

end MQT.DD
