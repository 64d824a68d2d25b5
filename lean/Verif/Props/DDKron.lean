/-
Kronecker products of decision diagrams (C39).
-/
import Verif.DD.Kron
import Verif.DD.Multiply
import Verif.Props.DDArith

set_option autoImplicit false

noncomputable section

open Classical

namespace MQT.DD

open MQT.IR (Bits State)

/-- **C39 (vectors).** For all states of `n` and `m` qubits, the result of `kronecker` is a
state of `n + m` qubits whose amplitude at `z` is the product of the amplitude of the left
operand at the upper `n` bits and of the right operand at the lower `m` bits. -/
theorem c39_vector {n m : ℕ} {x y : VEdge} (hx : VECan n x) (hy : VECan m y) :
    VECan (n + m) (kronV x y) ∧
      ∀ z, (kronV x y).vec z = x.vec (fun q => z (q + m)) * y.vec z :=
  kronV_spec hx hy

/-- **C39 (matrices), partial.** For all matrices on `n` and `m` qubits, provided the right
operand is a multiple of the identity (or zero) or has its root on level `m - 1`, the result
of `kronecker` represents the Kronecker product. Missing: right operands that act as the
identity on their top qubits without being the identity; for these the statement is false
(`c39_matrix_wrong`). -/
theorem c39_matrix_partial {n m : ℕ} {x y : MEdge} (hx : MECan n x) (hy : MECan m y)
    (hroot : ∀ v w c, y.p = .node v w c → v + 1 = m) :
    MECan (n + m) (kronM x y m) ∧
      ∀ a b, (kronM x y m).mat (n + m) a b
        = x.mat n (fun q => a (q + m)) (fun q => b (q + m)) * y.mat m a b := by
  have hs : y.w ≠ 0 → kronShift y m true = m := by
    intro _
    unfold kronShift
    cases h : y.p with
    | term => rfl
    | node v w c => simpa using hroot v w c h
  obtain ⟨h1, h2⟩ := kronMRec_spec hy.ok hs x.p x.w n hx
  unfold kronM
  exact ⟨h1.lookup, fun a b => by rw [lookup_mat, h2]; rfl⟩

/-- **C39 (matrices), all inputs.** What `kronecker` computes when the right operand has its
root on level `v`: the product with the `v + 1`-qubit matrix of the root; the number of qubits
that was passed is not used. -/
theorem c39_matrix_effective {n m v : ℕ} {w : RC → ℂ} {c : RC → MNode} {x y : MEdge}
    (hx : MECan n x) (hy : MECan m y) (hp : y.p = .node v w c) (k : ℕ) :
    MECan (n + (v + 1)) (kronM x y k) ∧
      ∀ a b, (kronM x y k).mat (n + (v + 1)) a b
        = x.mat n (fun q => a (q + (v + 1))) (fun q => b (q + (v + 1))) * y.mat (v + 1) a b := by
  have hy0 : y.w ≠ 0 := fun h => by have := hy.1 h; rw [this] at hp; cases hp
  have hy' : MECan (v + 1) y := by
    refine ⟨hy.1, fun h0 => ?_⟩
    have := hy.2 h0
    rw [hp] at this ⊢
    exact ⟨Nat.lt_succ_self v, this.2⟩
  have e : kronM x y k = kronM x y (v + 1) := by
    unfold kronM
    congr 1
    obtain ⟨p, xw⟩ := x
    simp only
    clear hx
    induction p generalizing xw with
    | term => rfl
    | node u wx cx ih =>
      rw [kronMRec, kronMRec]
      have : kronShift y k true = kronShift y (v + 1) true := by
        unfold kronShift; rw [hp]
      rw [this]
      simp only [ih]
  rw [e]
  refine c39_matrix_partial hx hy' (fun v' w' c' h => ?_)
  rw [hp] at h
  cases h; rfl

/-- The level of the node of `xGate`. -/
theorem xGate_p (q : ℕ) : ∃ w c, (xGate q).p = .node q w c ∧ (xGate q).w ≠ 0 := by
  have hw : (xGate q).w ≠ 0 := by
    intro h
    have h2 := xGate_mat q (fun k => decide (k = q)) (fun _ => false)
    rw [if_pos ⟨by simp, fun k hk => by simp; omega⟩] at h2
    unfold Edge.mat at h2
    rw [h, zero_mul] at h2
    exact zero_ne_one h2
  have hc := xGate_can q
  cases hp : (xGate q).p with
  | term =>
    exfalso
    have h2 := xGate_mat q (fun k => decide (k = q)) (fun _ => false)
    rw [if_pos ⟨by simp, fun k hk => by simp; omega⟩] at h2
    unfold Edge.mat at h2
    rw [hp, mval_term, if_neg (fun h => by simpa using h q (Nat.lt_succ_self q)), mul_zero] at h2
    exact zero_ne_one h2
  | node v w c =>
    refine ⟨w, c, ?_, hw⟩
    by_cases hv : v = q
    · rw [hv]
    · exfalso
      have h1 := hc.2 hw
      rw [hp] at h1
      have hlt : v + 1 ≤ q := by have := h1.1; omega
      have hok : MOk (v + 1) (xGate q) := fun _ => by
        rw [hp]; exact ⟨Nat.lt_succ_self v, h1.2⟩
      have h2 := xGate_mat q (fun k => decide (k = q)) (fun _ => false)
      rw [if_pos ⟨by simp, fun k hk => by simp; omega⟩,
        mat_lift hok (by omega), if_neg] at h2
      · exact zero_ne_one h2
      · intro h; simpa using h q hlt (Nat.lt_succ_self q)

/-- **C39 is false for matrices in general.** The product of `X` with the two-qubit matrix
`I ⊗ X` is computed as `I ⊗ X ⊗ X`: the entry in row `|101⟩` and column `|000⟩` is 0 instead
of 1. -/
theorem c39_matrix_wrong :
    ∃ (x y : MEdge) (a b : Bits), MECan 1 x ∧ MECan 2 y ∧
      (kronM x y 2).mat (1 + 2) a b = 0 ∧
      x.mat 1 (fun q => a (q + 2)) (fun q => b (q + 2)) * y.mat 2 a b = 1 := by
  obtain ⟨w, c, hp, _⟩ := xGate_p 0
  have h2 : MECan 2 (xGate 0) := (xGate_can 0).up (by omega)
  refine ⟨xGate 0, xGate 0, fun q => decide (q ≠ 1), fun _ => false, xGate_can 0, h2, ?_, ?_⟩
  · obtain ⟨h3, _⟩ := c39_matrix_effective (xGate_can 0) h2 hp 2
    rw [mat_lift h3.ok (by omega), if_neg]
    intro h
    simpa using h 2 (by omega) (by omega)
  · rw [xGate_mat 0, if_pos (by simp), mat_lift (xGate_can 0).ok (by omega : 0 + 1 ≤ 2),
      if_pos (by intro q h1 h2; obtain rfl : q = 1 := by omega
                 rfl),
      xGate_mat 0, if_pos (by simp), one_mul]

/-- **C39 (compute table).** As long as the number of qubits passed does not change, the
compute table is transparent: over any sequence of calls starting from an empty table each
call returns what the uncached function returns. -/
theorem c39_table_transparent (k : ℕ) (calls : List (MEdge × MEdge)) (x y : MEdge) :
    (kronMT true k y x.p x.w
      (calls.foldl (fun t c => (kronMT true k c.2 c.1.p c.1.w t).2) (fun _ _ => none))).1.lookup
      = kronM x y k := by
  have hok : ∀ (t : KTable), t.Ok true k →
      (calls.foldl (fun t c => (kronMT true k c.2 c.1.p c.1.w t).2) t).Ok true k := by
    induction calls with
    | nil => exact fun t h => h
    | cons c l ih => exact fun t h => ih _ (kronMT_spec c.2 c.1.p c.1.w t h).2
  unfold kronM
  rw [(kronMT_spec y x.p x.w _ (hok _ (fun p q r h => by simp at h))).1]

/-- **C39 is false across different numbers of qubits.** The table is keyed by the two nodes
only. After `X ⊗ I` with a one-qubit identity, the product of `X` with a two-qubit identity
comes back as `X` on qubit 1: entry `(|100⟩, |000⟩)` is 0, while without the table it is 1. -/
theorem c39_table_wrong :
    ∃ (x y : MEdge) (a b : Bits), MECan 1 x ∧ MECan 2 y ∧
      (kronMT true 2 y x.p x.w (kronMT true 1 y x.p x.w (fun _ _ => none)).2).1.lookup.mat 3 a b
        = 0 ∧
      (kronM x y 2).mat 3 a b = 1 := by
  obtain ⟨w, c, hp, hw⟩ := xGate_p 0
  have hone : ∀ n, MECan n (Edge.one : MEdge) := fun n =>
    ⟨fun h => absurd h one_ne_zero, fun _ => trivial⟩
  have hterm : ∀ (m v : ℕ) (w : RC → ℂ) (c : RC → MNode),
      (Edge.one : MEdge).p = .node v w c → v + 1 = m := by
    intro m v w c h; exact absurd h (by simp [Edge.one])
  refine ⟨xGate 0, .one, fun q => decide (q = 2), fun _ => false, xGate_can 0, hone 2, ?_, ?_⟩
  · have h1 := c39_matrix_partial (m := 1) (xGate_can 0) (hone 1) (hterm 1)
    have ht := c39_table_transparent 1 [] (xGate 0) .one
    simp only [List.foldl_nil] at ht
    have hh : (kronMT true 2 .one (xGate 0).p (xGate 0).w
        (kronMT true 1 .one (xGate 0).p (xGate 0).w (fun _ _ => none)).2).1
        = (kronMT true 1 .one (xGate 0).p (xGate 0).w (fun _ _ => none)).1 := by
      rw [hp]
      exact kronMT_hit true true 1 2 .one hw one_ne_zero _
    rw [hh, ht, mat_lift h1.1.ok (by omega), if_neg]
    intro h
    simpa using h 2 (by omega) (by omega)
  · have h1 := c39_matrix_partial (m := 2) (xGate_can 0) (hone 2) (hterm 2)
    rw [h1.2, xGate_mat 0, if_pos (by simp), one_mul]
    unfold Edge.one
    rw [term_mat, if_pos]
    intro q hq
    simp; omega

/-- `X ⊗ X` on two qubits: entry `(|11⟩, |00⟩)` is 1. -/
example : (kronM (xGate 0) (xGate 0) 1).mat 2 (fun _ => true) (fun _ => false) = 1 := by
  obtain ⟨w, c, hp, _⟩ := xGate_p 0
  rw [(c39_matrix_partial (xGate_can 0) (xGate_can 0)
    (fun v' w' c' h => by rw [hp] at h; cases h; rfl)).2, xGate_mat 0, if_pos (by simp), one_mul]

/-- `|1⟩ ⊗ |0⟩`: the amplitude of `|10⟩` is 1. -/
example : (kronV (makeV 0 (fun b => if b then .one else .zero))
    (makeV 0 (fun b => if b then .zero else .one))).vec (fun q => decide (q = 1)) = 1 := by
  have h : ∀ d : Bool, VECan 1 (makeV 0 (fun b => if b = d then .one else .zero)) := fun d =>
    makeV_can (n := 0) (e := fun b => if b = d then .one else .zero) (fun b h => by
      by_cases hb : b = d
      · rw [if_pos hb]; rfl
      · simp only [hb, if_false] at h; exact absurd rfl h)
  have h1 := h true
  have h0 := h false
  have e0 : (fun b : Bool => if b = false then (Edge.one : VEdge) else .zero)
      = fun b => if b then .zero else .one := by funext b; cases b <;> rfl
  rw [e0] at h0
  rw [(c39_vector h1 h0).2, makeV_vec, makeV_vec]
  simp [Edge.vec, Edge.one, vval]

end MQT.DD
