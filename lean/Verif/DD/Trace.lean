/-
Trace and partial trace of matrix decision diagrams.

Source in /repo: include/mqt-core/dd/Package.hpp 1503-1647 (`trace`), src/dd/Package.cpp
1037-1041 (`partialTrace`).

Simplifications: weights are exact; the compute table `matrixTrace` is left out of
`traceRec` and added in `traceT`; the template instance for density matrices is not modelled.
`eliminate[v]` with `v` outside of the vector, and a level that became negative (an unsigned
underflow, which then indexes the unique table out of bounds) are undefined (`none`).
-/
import Verif.DD.Multiply
import Verif.DD.Canonical
import Mathlib.Data.List.GetD

set_option autoImplicit false

noncomputable section

open Classical
open Function (update)

namespace MQT.DD

open MQT.IR (Bits State)

/-! ### Model -/

/-- The private `trace` on the edge with the given node and weight; then `level` and
`alreadyEliminated`. -/
def traceRec (el : List Bool) : MNode → ℂ → ℕ → ℕ → Option MEdge
  | .term, w, _, _ => if w = 0 then some .zero else some ⟨.term, w⟩
  | .node v w' c, w, level, already =>
    if w = 0 then some .zero
    else if (el.take level).all (fun e => !e) = true then some ⟨.node v w' c, w⟩
    else
      match el[v]? with
      | none => none
      | some true =>
        match traceRec el (c (false, false)) (w' (false, false)) (level - 1) (already + 1),
          traceRec el (c (true, true)) (w' (true, true)) (level - 1) (already + 1) with
        | some r0, some r1 => (madd2 v r0 r1).map fun r => ⟨r.p, r.w / 2 * w⟩
        | _, _ => none
      | some false =>
        match collect fun b => traceRec el (c b) (w' b) (level - 1) already with
        | none => none
        | some edge =>
          if el.count true < already ∨ v < el.count true - already then none
          else
            let r := makeM (v - (el.count true - already)) edge
            some ⟨r.p, r.w * w⟩

/-- `partialTrace`. The weight is looked up, the node is kept even if the weight is zero. -/
def partialTrace (a : MEdge) (el : List Bool) : Option MEdge := traceRec el a.p a.w el.length 0

/-- `trace`. -/
def trace (a : MEdge) (n : ℕ) : Option ℂ :=
  if a.p = .term ∧ a.w ≠ 0 then some a.w
  else (traceRec (List.replicate n true) a.p a.w n 0).map Edge.w

/-! ### Reference -/

/-- Is qubit `q` eliminated? -/
def elim (el : List Bool) (q : ℕ) : Bool := el.getD q false

/-- The number of kept qubits below `n`, which is the new position of qubit `n`. -/
def rank (el : List Bool) : ℕ → ℕ
  | 0 => 0
  | n + 1 => rank el n + (if elim el n then 0 else 1)

/-- The number of eliminated qubits below `n`. -/
def elims (el : List Bool) : ℕ → ℕ
  | 0 => 0
  | n + 1 => elims el n + (if elim el n then 1 else 0)

/-- The assignment of all qubits that takes the eliminated ones from `t` and the kept ones
from `x`. -/
def spread (el : List Bool) (t x : Bits) : Bits :=
  fun q => if elim el q then t q else x (rank el q)

/-- The normalised partial trace of the `n`-qubit matrix of `e`: the average over all values
`t` of the eliminated qubits (the bits of `t` at kept qubits are not used). -/
def ptr (el : List Bool) (n : ℕ) (e : MEdge) (x y : Bits) : ℂ :=
  (1 / 2) ^ n * sumB n (fun t => e.mat n (spread el t x) (spread el t y)) (fun _ => false)

/-- Shapes on which the level of a kept node is computed correctly: no eliminated level was
skipped above a kept node that is still reached. `sk` counts the eliminated levels skipped so
far, `n` bounds the levels below. -/
def ElimOk (el : List Bool) : ℕ → ℕ → ℕ → MNode → Prop
  | _, _, _, .term => True
  | level, sk, n, .node v w c =>
    (∀ q < level, elim el q = false) ∨
    if elim el v = true then
      ∀ b : RC, b.1 = b.2 → w b ≠ 0 →
        ElimOk el (level - 1) (sk + (elims el n - elims el (v + 1))) v (c b)
    else sk + (elims el n - elims el (v + 1)) = 0 ∧
      ∀ b, w b ≠ 0 → ElimOk el (level - 1) 0 v (c b)

/-! ### Counting -/

theorem rank_add_elims (el : List Bool) (n : ℕ) : rank el n + elims el n = n := by
  induction n with
  | zero => rfl
  | succ n ih => rw [rank, elims]; split_ifs <;> omega

theorem elims_mono (el : List Bool) {m n : ℕ} (h : m ≤ n) : elims el m ≤ elims el n := by
  induction n with
  | zero => obtain rfl : m = 0 := by omega
            exact le_rfl
  | succ n ih =>
    rcases Nat.lt_succ_iff_lt_or_eq.1 (Nat.lt_succ_of_le h) with h1 | rfl
    · rw [elims]; have := ih (by omega); omega
    · exact le_rfl

theorem rank_mono (el : List Bool) {m n : ℕ} (h : m ≤ n) : rank el m ≤ rank el n := by
  induction n with
  | zero => obtain rfl : m = 0 := by omega
            exact le_rfl
  | succ n ih =>
    rcases Nat.lt_succ_iff_lt_or_eq.1 (Nat.lt_succ_of_le h) with h1 | rfl
    · rw [rank]; have := ih (by omega); omega
    · exact le_rfl

theorem rank_le (el : List Bool) (n : ℕ) : rank el n ≤ n := by have := rank_add_elims el n; omega

theorem elim_append_lt (l : List Bool) (b : Bool) {q : ℕ} (h : q < l.length) :
    elim (l ++ [b]) q = elim l q := by
  unfold elim; rw [List.getD_append _ _ _ _ h]

theorem elims_append (l : List Bool) (b : Bool) {n : ℕ} (h : n ≤ l.length) :
    elims (l ++ [b]) n = elims l n := by
  induction n with
  | zero => rfl
  | succ n ih => rw [elims, elims, ih (by omega), elim_append_lt _ _ (by omega)]

theorem count_eq_elims (el : List Bool) : el.count true = elims el el.length := by
  induction el using List.reverseRecOn with
  | nil => rfl
  | append_singleton l b ih =>
    rw [List.length_append, List.length_singleton, elims, elims_append _ _ le_rfl, ← ih,
      List.count_append]
    have : elim (l ++ [b]) l.length = b := by unfold elim; simp
    rw [this]
    cases b <;> simp

theorem take_all_iff (el : List Bool) (level : ℕ) :
    (el.take level).all (fun e => !e) = true ↔ ∀ q < level, elim el q = false := by
  rw [List.all_eq_true]
  constructor
  · intro h q hq
    by_cases hl : q < el.length
    · have hm : el[q] ∈ el.take level := by
        rw [List.mem_take_iff_getElem]
        exact ⟨q, by omega, rfl⟩
      have := h _ hm
      unfold elim
      rw [List.getD_eq_getElem _ _ hl]
      simpa using this
    · unfold elim
      rw [List.getD_eq_default _ _ (by omega)]
  · intro h e he
    rw [List.mem_take_iff_getElem] at he
    obtain ⟨q, hq, rfl⟩ := he
    have := h q (by omega)
    unfold elim at this
    rw [List.getD_eq_getElem _ _ (by omega)] at this
    simp [this]

/-! ### Laws of the reference -/

theorem spread_congr (el : List Bool) {n : ℕ} {t t' : Bits} (x : Bits) (h : ∀ q < n, t q = t' q) :
    ∀ q < n, spread el t x q = spread el t' x q := by
  intro q hq
  unfold spread
  rw [h q hq]

theorem ptr_base (el : List Bool) (n : ℕ) (e : MEdge) (x y s : Bits) :
    ptr el n e x y
      = (1 / 2) ^ n * sumB n (fun t => e.mat n (spread el t x) (spread el t y)) s := by
  unfold ptr
  congr 1
  exact sumB_base (fun t t' h => mat_congr e n (spread_congr el x h) (spread_congr el y h)) _ _

/-- One more level, on which `e` has no node. -/
theorem ptr_succ_lift {el : List Bool} {n : ℕ} {e : MEdge} (h : MOk n e) (x y : Bits) :
    ptr el (n + 1) e x y
      = if elim el n = true ∨ x (rank el n) = y (rank el n) then ptr el n e x y else 0 := by
  have key : ∀ t, e.mat (n + 1) (spread el t x) (spread el t y)
      = if elim el n = true ∨ x (rank el n) = y (rank el n) then
          e.mat n (spread el t x) (spread el t y) else 0 := by
    intro t
    rw [mat_lift h (Nat.le_succ n)]
    have : (∀ q, n ≤ q → q < n + 1 → spread el t x q = spread el t y q) ↔
        (elim el n = true ∨ x (rank el n) = y (rank el n)) := by
      constructor
      · intro h1
        have := h1 n le_rfl (Nat.lt_succ_self n)
        unfold spread at this
        by_cases he : elim el n = true
        · exact Or.inl he
        · rw [if_neg he, if_neg he] at this; exact Or.inr this
      · intro h1 q hq hq'
        obtain rfl : q = n := by omega
        unfold spread
        rcases h1 with h1 | h1
        · rw [if_pos h1, if_pos h1]
        · rw [h1]
    simp only [this]
  unfold ptr
  simp only [key]
  by_cases hc : elim el n = true ∨ x (rank el n) = y (rank el n)
  · simp only [hc, if_true]
    rw [sumB]
    have hb : ∀ s, sumB n (fun t => e.mat n (spread el t x) (spread el t y)) s
        = sumB n (fun t => e.mat n (spread el t x) (spread el t y)) (fun _ => false) := fun s =>
      sumB_base (fun t t' h => mat_congr e n (spread_congr el x h) (spread_congr el y h)) _ _
    rw [hb, hb (update _ n true), pow_succ]
    ring
  · simp only [hc, if_false]
    rw [sumB_zero, mul_zero]

/-- Several more levels. -/
theorem ptr_lift {el : List Bool} {m n : ℕ} {e : MEdge} (h : MOk m e) (hmn : m ≤ n) (x y : Bits) :
    ptr el n e x y
      = if ∀ q, rank el m ≤ q → q < rank el n → x q = y q then ptr el m e x y else 0 := by
  induction n, hmn using Nat.le_induction with
  | base => rw [if_pos (by intro q h1 h2; omega)]
  | succ n hmn ih =>
    rw [ptr_succ_lift (h.up hmn), ih]
    have hr := rank_mono el hmn
    by_cases he : elim el n = true
    · have : rank el (n + 1) = rank el n := by rw [rank, if_pos he]; rfl
      rw [if_pos (Or.inl he), this]
    · have hs : rank el (n + 1) = rank el n + 1 := by rw [rank, if_neg he]
      have : (∀ q, rank el m ≤ q → q < rank el (n + 1) → x q = y q) ↔
          (elim el n = true ∨ x (rank el n) = y (rank el n)) ∧
            ∀ q, rank el m ≤ q → q < rank el n → x q = y q := by
        rw [hs]
        constructor
        · intro h1
          exact ⟨Or.inr (h1 _ hr (Nat.lt_succ_self _)), fun q a b => h1 q a (by omega)⟩
        · rintro ⟨h1, h2⟩ q a b
          rcases Nat.lt_succ_iff_lt_or_eq.1 b with b | rfl
          · exact h2 q a b
          · exact h1.resolve_left he
      simp only [this]
      by_cases h1 : elim el n = true ∨ x (rank el n) = y (rank el n)
      · simp only [h1, true_and, if_true]
      · simp only [h1, false_and, if_false]

/-- A node on an eliminated level. -/
theorem ptr_node_elim {el : List Bool} {v : ℕ} (he : elim el v = true) (w' : RC → ℂ)
    (c : RC → MNode) (w : ℂ) (x y : Bits) :
    ptr el (v + 1) ⟨.node v w' c, w⟩ x y
      = (ptr el v ⟨c (false, false), w' (false, false)⟩ x y
          + ptr el v ⟨c (true, true), w' (true, true)⟩ x y) / 2 * w := by
  have key : ∀ b : Bool,
      sumB v (fun t => (⟨.node v w' c, w⟩ : MEdge).mat (v + 1) (spread el t x) (spread el t y))
          (update (fun _ => false) v b)
        = w * sumB v (fun t => (⟨c (b, b), w' (b, b)⟩ : MEdge).mat v (spread el t x) (spread el t y))
          (update (fun _ => false) v b) := by
    intro b
    rw [← sumB_mul_left]
    apply sumB_congr
    intro t ht
    have htv : t v = b := by rw [ht v le_rfl, Function.update_self]
    rw [mat_succ]
    have e1 : ∀ z, spread el t z v = b := by intro z; unfold spread; rw [if_pos he, htv]
    simp only [expand, if_true, e1]
  rw [ptr_base el v _ x y (update (fun _ => false) v false),
    ptr_base el v ⟨c (true, true), _⟩ x y (update (fun _ => false) v true), ptr, sumB, key, key,
    pow_succ]
  ring

/-- A node on a kept level. -/
theorem ptr_node_keep {el : List Bool} {v : ℕ} (he : elim el v = false) (w' : RC → ℂ)
    (c : RC → MNode) (w : ℂ) (x y : Bits) :
    ptr el (v + 1) ⟨.node v w' c, w⟩ x y
      = ptr el v ⟨c (x (rank el v), y (rank el v)), w' (x (rank el v), y (rank el v))⟩ x y * w := by
  have key : ∀ t, (⟨.node v w' c, w⟩ : MEdge).mat (v + 1) (spread el t x) (spread el t y)
      = w * (⟨c (x (rank el v), y (rank el v)), w' (x (rank el v), y (rank el v))⟩ : MEdge).mat v
          (spread el t x) (spread el t y) := by
    intro t
    rw [mat_succ]
    have e1 : ∀ z, spread el t z v = z (rank el v) := by
      intro z; unfold spread; rw [if_neg (by simp [he])]
    simp only [expand, if_true, e1]
  rw [ptr]
  simp only [key]
  rw [sumB, sumB_mul_left, sumB_mul_left]
  have hb := ptr_base el v ⟨c (x (rank el v), y (rank el v)), w' (x (rank el v), y (rank el v))⟩ x y
  have h1 := hb (update (fun _ => false) v false)
  have h2 := hb (update (fun _ => false) v true)
  rw [pow_succ]
  linear_combination (-w / 2) * h1 + (-w / 2) * h2

theorem ptr_zero (el : List Bool) (n : ℕ) (p : MNode) (x y : Bits) : ptr el n ⟨p, 0⟩ x y = 0 := by
  unfold ptr
  simp only [Edge.mat, zero_mul]
  rw [sumB_zero, mul_zero]

theorem ptr_smul (el : List Bool) (n : ℕ) (p : MNode) (z w : ℂ) (x y : Bits) :
    ptr el n ⟨p, z * w⟩ x y = z * ptr el n ⟨p, w⟩ x y := by
  unfold ptr
  have : ∀ t, (⟨p, z * w⟩ : MEdge).mat n (spread el t x) (spread el t y)
      = z * (⟨p, w⟩ : MEdge).mat n (spread el t x) (spread el t y) := by
    intro t; simp only [Edge.mat]; ring
  simp only [this]
  rw [sumB_mul_left]
  ring

/-- With nothing eliminated below `n` nothing changes. -/
theorem ptr_none {el : List Bool} {n : ℕ} (h : ∀ q < n, elim el q = false) (e : MEdge)
    (x y : Bits) : ptr el n e x y = e.mat n x y := by
  have hr : ∀ m ≤ n, rank el m = m := by
    intro m hm
    induction m with
    | zero => rfl
    | succ m ih => rw [rank, h m (by omega), ih (by omega)]; rfl
  have hs : ∀ t z, ∀ q < n, spread el t z q = z q := by
    intro t z q hq
    unfold spread
    rw [h q hq, hr q hq.le]
    rfl
  unfold ptr
  have : ∀ t, e.mat n (spread el t x) (spread el t y) = e.mat n x y := fun t =>
    mat_congr e n (hs t x) (hs t y)
  simp only [this]
  have hc : ∀ (k : ℕ) (s : Bits) (z : ℂ), sumB k (fun _ => z) s = 2 ^ k * z := by
    intro k
    induction k with
    | zero => intro s z; simp [sumB]
    | succ k ih => intro s z; rw [sumB, ih, ih, pow_succ]; ring
  rw [hc, ← mul_assoc, ← mul_pow]
  norm_num

theorem rank_none {el : List Bool} {n : ℕ} (h : ∀ q < n, elim el q = false) : rank el n = n := by
  induction n with
  | zero => rfl
  | succ m ih => rw [rank, h m (by omega), ih (fun q hq => h q (by omega))]; rfl

theorem ptr_term {el : List Bool} (n : ℕ) (w : ℂ) (x y : Bits) :
    ptr el n ⟨.term, w⟩ x y = (⟨.term, w⟩ : MEdge).mat (rank el n) x y := by
  have h0 : MOk 0 (⟨.term, w⟩ : MEdge) := fun _ => trivial
  rw [ptr_lift h0 (Nat.zero_le n), mat_lift h0 (Nat.zero_le _)]
  simp [rank, ptr, sumB, Edge.mat, mval]

/-! ### Adding on fewer levels than announced -/

/-- `add2` started on a level above both operands gives a result that fits below. -/
theorem madd2_low {m n : ℕ} (hmn : m ≤ n) {x y : MEdge} (hx : MOk m x) (hy : MOk m y) :
    ∃ r, madd2 n x y = some r ∧ MOk m r ∧ ∀ a b, r.mat m a b = x.mat m a b + y.mat m a b := by
  obtain ⟨r, h1, h2, h3⟩ := madd2_spec (hx.up hmn) (hy.up hmn)
  obtain ⟨r', h1', h2', h3'⟩ := madd2_spec hx hy
  have heq : r.lookup = r'.lookup := by
    apply mecan_inj h2.lookup (h2'.lookup.up hmn)
    intro a b
    rw [lookup_mat, lookup_mat, h3, mat_lift hx hmn, mat_lift hy hmn, mat_lift h2' hmn, h3']
    split_ifs <;> simp
  have hm : ∀ a b, r.mat m a b = r'.mat m a b := by
    intro a b
    rw [← lookup_mat r, heq, lookup_mat]
  refine ⟨r, h1, fun h0 => ?_, fun a b => by rw [hm, h3']⟩
  have e : r.lookup = r := by unfold Edge.lookup; rw [if_neg h0]
  have := h2'.lookup
  rw [← heq, e] at this
  exact this.2 h0

/-! ### Correctness -/

theorem traceRec_spec (el : List Bool) (p : MNode) (w : ℂ) (n level already sk : ℕ)
    (hp : MECan n ⟨p, w⟩) (hnl : n ≤ level) (hle : level ≤ el.length)
    (hal : already + sk + elims el n = elims el el.length)
    (hok : w ≠ 0 → ElimOk el level sk n p) :
    ∃ r, traceRec el p w level already = some r ∧ MOk (rank el n) r ∧
      ∀ x y, r.mat (rank el n) x y = ptr el n ⟨p, w⟩ x y := by
  by_cases hw : w = 0
  · refine ⟨.zero, ?_, MOk.zero _, fun x y => ?_⟩
    · cases p <;> rw [traceRec, if_pos hw]
    · rw [hw, ptr_zero]; simp [Edge.mat]
  induction p generalizing w n level already sk with
  | term =>
    refine ⟨⟨.term, w⟩, by rw [traceRec, if_neg hw], fun _ => trivial, fun x y => ?_⟩
    rw [ptr_term]
  | node v w' c ih =>
    rw [traceRec, if_neg hw]
    obtain ⟨g1, g2, g3, g4⟩ := hp.2 hw
    by_cases hnone : (el.take level).all (fun e => !e) = true
    · rw [if_pos hnone]
      rw [take_all_iff] at hnone
      have hn' : ∀ q < n, elim el q = false := fun q hq => hnone q (by omega)
      refine ⟨_, rfl, ?_, fun x y => ?_⟩
      · rw [rank_none hn']; exact hp.ok
      · rw [ptr_none hn', rank_none hn']
    · rw [if_neg hnone]
      have hok' := hok hw
      rw [ElimOk] at hok'
      have hok'' := hok'.resolve_left (fun h => hnone ((take_all_iff el level).2 h))
      have hvl : v < el.length := by omega
      have hev : elim el v = el[v] := by
        unfold elim; rw [List.getD_eq_getElem _ _ hvl]
      rw [List.getElem?_eq_getElem hvl, ← hev]
      have hmono := elims_mono el (show v + 1 ≤ n by omega)
      have hpo : MOk (v + 1) ⟨.node v w' c, w⟩ := fun _ => ⟨Nat.lt_succ_self v, g2, g3, g4⟩
      -- the children, for any count of skipped levels
      have child : ∀ (b : RC) (already' sk' : ℕ), already' + sk' + elims el v = elims el el.length →
          (w' b ≠ 0 → ElimOk el (level - 1) sk' v (c b)) →
          ∃ r, traceRec el (c b) (w' b) (level - 1) already' = some r ∧ MOk (rank el v) r ∧
            ∀ x y, r.mat (rank el v) x y = ptr el v ⟨c b, w' b⟩ x y := by
        intro b already' sk' ha' hok'
        by_cases h0 : w' b = 0
        · refine ⟨.zero, ?_, MOk.zero _, fun x y => ?_⟩
          · rw [h0]; cases c b <;> rw [traceRec, if_pos rfl]
          · rw [h0, ptr_zero]; simp [Edge.mat]
        · exact ih b (w' b) v (level - 1) already' sk' (g4 b) (by omega) (by omega) ha' hok' h0
      -- lifting from the node to `n`
      have lift : ∀ r : MEdge, MOk (rank el (v + 1)) r →
          (∀ x y, r.mat (rank el (v + 1)) x y = ptr el (v + 1) ⟨.node v w' c, w⟩ x y) →
          MOk (rank el n) r ∧
            ∀ x y, r.mat (rank el n) x y = ptr el n ⟨.node v w' c, w⟩ x y := by
        intro r hr hv
        have hrm := rank_mono el (show v + 1 ≤ n by omega)
        refine ⟨hr.up hrm, fun x y => ?_⟩
        rw [mat_lift hr hrm, ptr_lift hpo (by omega), hv]
      cases he : elim el v with
      | true =>
        rw [if_pos he] at hok''
        have hel : elims el (v + 1) = elims el v + 1 := by rw [elims, if_pos he]
        have hrk : rank el (v + 1) = rank el v := by rw [rank, if_pos he]; rfl
        obtain ⟨r0, a0, b0, c0⟩ := child (false, false) (already + 1)
          (sk + (elims el n - elims el (v + 1))) (by omega) (hok'' (false, false) rfl)
        obtain ⟨r1, a1, b1, c1⟩ := child (true, true) (already + 1)
          (sk + (elims el n - elims el (v + 1))) (by omega) (hok'' (true, true) rfl)
        obtain ⟨r, d1, d2, d3⟩ := madd2_low (rank_le el v) b0 b1
        simp only [a0, a1, d1, Option.map_some]
        refine ⟨_, rfl, ?_⟩
        apply lift
        · rw [hrk]
          intro h
          apply d2
          intro h0
          apply h
          show r.w / 2 * w = 0
          rw [h0]; simp
        · intro x y
          rw [hrk, ptr_node_elim he, ← c0, ← c1, ← d3]
          simp only [Edge.mat]
          ring
      | false =>
        rw [if_neg (by simp [he])] at hok''
        obtain ⟨hsk, hch⟩ := hok''
        have hel : elims el (v + 1) = elims el v := by rw [elims, he]; rfl
        have hrk : rank el (v + 1) = rank el v + 1 := by rw [rank, he]; rfl
        have hall := fun b => child b already 0 (by omega) (hch b)
        choose f f1 f2 f3 using hall
        have hcol : (collect fun b => traceRec el (c b) (w' b) (level - 1) already) = some f :=
          collect_some f1
        have hre := rank_add_elims el v
        have hvr : v - (el.count true - already) = rank el v := by
          rw [count_eq_elims]; omega
        have hno : ¬ (el.count true < already ∨ v < el.count true - already) := by
          rw [count_eq_elims]; omega
        simp only [hcol]
        rw [if_neg hno, hvr]
        refine ⟨_, rfl, ?_⟩
        apply lift
        · rw [hrk]
          intro h
          apply (makeM_can f2).2
          intro h0
          apply h
          show (makeM (rank el v) f).w * w = 0
          rw [h0, zero_mul]
        · intro x y
          rw [hrk, ptr_node_keep he, ← f3, ← makeM_mat f2]
          simp only [Edge.mat]
          ring

/-! ### The compute table -/

/-- The normalised trace of a node, computed without any table. -/
def ntr : MNode → ℂ
  | .term => 1
  | .node _ w c => (w (false, false) * ntr (c (false, false)) + w (true, true) * ntr (c (true, true))) / 2

/-- An ideal `matrixTrace` table. -/
abbrev TTable := MNode → Option MEdge

/-- The private `trace` with the compute table threaded through. -/
def traceT (el : List Bool) : MNode → ℂ → ℕ → ℕ → TTable → Option (MEdge × TTable)
  | .term, w, _, _, t => if w = 0 then some (.zero, t) else some (⟨.term, w⟩, t)
  | .node v w' c, w, level, already, t =>
    if w = 0 then some (.zero, t)
    else if (el.take level).all (fun e => !e) = true then some (⟨.node v w' c, w⟩, t)
    else
      match el[v]? with
      | none => none
      | some true =>
        let eliminateAll := (el.take level).all (fun e => e)
        match if eliminateAll = true then t (.node v w' c) else none with
        | some r => some (⟨r.p, r.w * w⟩, t)
        | none =>
          match traceT el (c (false, false)) (w' (false, false)) (level - 1) (already + 1) t with
          | none => none
          | some (r0, t0) =>
            match traceT el (c (true, true)) (w' (true, true)) (level - 1) (already + 1) t0 with
            | none => none
            | some (r1, t1) =>
              (madd2 v r0 r1).map fun r =>
                (⟨r.p, r.w / 2 * w⟩, if eliminateAll = true then
                  fun p => if p = .node v w' c then some ⟨r.p, r.w / 2⟩ else t1 p else t1)
      | some false =>
        match traceT el (c (false, false)) (w' (false, false)) (level - 1) already t with
        | none => none
        | some (r0, t0) =>
          match traceT el (c (false, true)) (w' (false, true)) (level - 1) already t0 with
          | none => none
          | some (r1, t1) =>
            match traceT el (c (true, false)) (w' (true, false)) (level - 1) already t1 with
            | none => none
            | some (r2, t2) =>
              match traceT el (c (true, true)) (w' (true, true)) (level - 1) already t2 with
              | none => none
              | some (r3, t3) =>
                if el.count true < already ∨ v < el.count true - already then none
                else
                  let r := makeM (v - (el.count true - already))
                    (fun i => if i = (false, false) then r0 else if i = (false, true) then r1
                      else if i = (true, false) then r2 else r3)
                  some (⟨r.p, r.w * w⟩, t3)

/-- All entries are normalised traces. -/
def TTable.Ok (t : TTable) : Prop := ∀ p r, t p = some r → r = ⟨.term, ntr p⟩

theorem madd2_term (v : ℕ) (a b : ℂ) :
    madd2 v ⟨.term, a⟩ ⟨.term, b⟩ = some ⟨.term, a + b⟩ := by
  have : addPre (⟨.term, a⟩ : MEdge) ⟨.term, b⟩ = some ⟨.term, a + b⟩ := by
    unfold addPre
    by_cases ha : a = 0
    · by_cases hb : b = 0
      · simp [ha, hb, Edge.zero]
      · simp [ha, hb]
    · by_cases hb : b = 0
      · simp [ha, hb]
      · simp [ha, hb]
  unfold madd2
  cases v <;> simp [recM, this]

theorem take_all_true (el : List Bool) (level : ℕ) (h : level ≤ el.length) :
    (el.take level).all (fun e => e) = true ↔ ∀ q < level, elim el q = true := by
  rw [List.all_eq_true]
  constructor
  · intro h' q hq
    have hm : el[q] ∈ el.take level := by
      rw [List.mem_take_iff_getElem]
      exact ⟨q, by omega, rfl⟩
    have := h' _ hm
    unfold elim
    rw [List.getD_eq_getElem _ _ (by omega)]
    simpa using this
  · intro h' e he
    rw [List.mem_take_iff_getElem] at he
    obtain ⟨q, hq, rfl⟩ := he
    have := h' q (by omega)
    unfold elim at this
    rwa [List.getD_eq_getElem _ _ (by omega)] at this

/-- With everything below eliminated the result is the normalised trace. -/
theorem traceRec_full (el : List Bool) (p : MNode) (w : ℂ) (n level already : ℕ)
    (hp : MECan n ⟨p, w⟩) (hnl : n ≤ level) (hle : level ≤ el.length)
    (hall : ∀ q < level, elim el q = true) :
    traceRec el p w level already = some ⟨.term, ntr p * w⟩ := by
  by_cases hw : w = 0
  · cases p <;> rw [traceRec, if_pos hw, hw, mul_zero] <;> rfl
  induction p generalizing w n level already with
  | term => rw [traceRec, if_neg hw, ntr, one_mul]
  | node v w' c ih =>
    obtain ⟨g1, g2, g3, g4⟩ := hp.2 hw
    have hv := hall v (by omega)
    have hnone : ¬ (el.take level).all (fun e => !e) = true := by
      rw [take_all_iff]
      intro h
      have := h v (by omega)
      rw [hv] at this
      exact absurd this (by decide)
    rw [traceRec, if_neg hw, if_neg hnone]
    have hvl : v < el.length := by omega
    have hev : el[v]? = some true := by
      rw [List.getElem?_eq_getElem hvl]
      unfold elim at hv
      rw [List.getD_eq_getElem _ _ hvl] at hv
      rw [hv]
    have child : ∀ b, traceRec el (c b) (w' b) (level - 1) (already + 1)
        = some ⟨.term, ntr (c b) * w' b⟩ := by
      intro b
      by_cases h0 : w' b = 0
      · rw [h0, mul_zero]; cases c b <;> rw [traceRec, if_pos rfl] <;> rfl
      · exact ih b (w' b) v (level - 1) (already + 1) (g4 b) (by omega) (by omega)
          (fun q hq => hall q (by omega)) h0
    simp only [hev, child, madd2_term, Option.map_some, ntr]
    congr 2
    ring

/-- The table changes no result, whatever the eliminated qubits of the earlier calls were. -/
theorem traceT_spec (el : List Bool) (p : MNode) (w : ℂ) (n level already : ℕ) (t : TTable)
    (ht : t.Ok) (hp : MECan n ⟨p, w⟩) (hnl : n ≤ level) (hle : level ≤ el.length) :
    (∀ r, traceRec el p w level already = some r →
      ∃ t', traceT el p w level already t = some (r, t') ∧ t'.Ok) ∧
    (traceRec el p w level already = none → traceT el p w level already t = none) := by
  by_cases hw : w = 0
  · cases p <;> rw [traceRec, traceT, if_pos hw, if_pos hw] <;> simp [ht]
  induction p generalizing w n level already t with
  | term => rw [traceRec, traceT, if_neg hw, if_neg hw]; simp [ht]
  | node v w' c ih =>
    obtain ⟨g1, g2, g3, g4⟩ := hp.2 hw
    have child : ∀ (b : RC) (already' : ℕ) (t : TTable), t.Ok →
        (∀ r, traceRec el (c b) (w' b) (level - 1) already' = some r →
          ∃ t', traceT el (c b) (w' b) (level - 1) already' t = some (r, t') ∧ t'.Ok) ∧
        (traceRec el (c b) (w' b) (level - 1) already' = none →
          traceT el (c b) (w' b) (level - 1) already' t = none) := by
      intro b already' t ht
      by_cases h0 : w' b = 0
      · rw [h0]; cases c b <;> rw [traceRec, traceT, if_pos rfl, if_pos rfl] <;> simp [ht]
      · exact ih b (w' b) v (level - 1) already' t ht (g4 b) (by omega) (by omega) h0
    have hfull := fun h => traceRec_full el (.node v w' c) w n level already hp hnl hle h
    rw [traceRec, if_neg hw] at hfull ⊢
    rw [traceT, if_neg hw]
    by_cases hnone : (el.take level).all (fun e => !e) = true
    · rw [if_pos hnone, if_pos hnone]; simp [ht]
    · rw [if_neg hnone] at hfull ⊢
      rw [if_neg hnone]
      cases hev : el[v]? with
      | none => simp
      | some e =>
        rw [hev] at hfull
        cases e with
        | true =>
          simp only at hfull ⊢
          by_cases hlk : ∃ r, (if (el.take level).all (fun e => e) = true then
              t (.node v w' c) else none) = some r
          · obtain ⟨r, hr⟩ := hlk
            simp only [hr]
            by_cases hea : (el.take level).all (fun e => e) = true
            · rw [if_pos hea] at hr
              have hr' := ht _ _ hr
              rw [hfull ((take_all_true el level hle).1 hea)]
              subst hr'
              simp [ht]
            · rw [if_neg hea] at hr; cases hr
          · have hr : (if (el.take level).all (fun e => e) = true then
              t (.node v w' c) else none) = none := by
              cases hh : (if (el.take level).all (fun e => e) = true then
                t (.node v w' c) else none) with
              | none => rfl
              | some r => exact absurd ⟨r, hh⟩ hlk
            simp only [hr]
            obtain ⟨c0, d0⟩ := child (false, false) (already + 1) t ht
            cases h0 : traceRec el (c (false, false)) (w' (false, false)) (level - 1)
                (already + 1) with
            | none => simp [d0 h0]
            | some r0 =>
              obtain ⟨t0, e0, f0⟩ := c0 r0 h0
              obtain ⟨c1, d1⟩ := child (true, true) (already + 1) t0 f0
              simp only [e0]
              cases h1 : traceRec el (c (true, true)) (w' (true, true)) (level - 1)
                  (already + 1) with
              | none => simp [d1 h1]
              | some r1 =>
                obtain ⟨t1, e1, f1⟩ := c1 r1 h1
                simp only [e1]
                rw [h0, h1] at hfull
                simp only at hfull
                cases hm : madd2 v r0 r1 with
                | none => simp
                | some rr =>
                  rw [hm] at hfull
                  simp only [Option.map_some] at hfull ⊢
                  refine ⟨fun r hr => ?_, fun h => by simp at h⟩
                  obtain rfl := Option.some.inj hr
                  refine ⟨_, rfl, ?_⟩
                  by_cases hea : (el.take level).all (fun e => e) = true
                  · rw [if_pos hea]
                    have hv := hfull ((take_all_true el level hle).1 hea)
                    simp only [Option.some.injEq, Edge.mk.injEq] at hv
                    intro p r' hp'
                    simp only at hp'
                    by_cases hpn : p = .node v w' c
                    · rw [if_pos hpn] at hp'
                      rw [← Option.some.inj hp', hpn]
                      have := mul_right_cancel₀ hw hv.2
                      rw [hv.1, this]
                    · rw [if_neg hpn] at hp'; exact f1 p r' hp'
                  · rw [if_neg hea]; exact f1
        | false =>
          simp only
          obtain ⟨c0, d0⟩ := child (false, false) already t ht
          cases h0 : traceRec el (c (false, false)) (w' (false, false)) (level - 1) already with
          | none => rw [collect_none_of h0]; simp [d0 h0]
          | some r0 =>
            obtain ⟨t0, e0, f0⟩ := c0 r0 h0
            obtain ⟨c1, d1⟩ := child (false, true) already t0 f0
            simp only [e0]
            cases h1 : traceRec el (c (false, true)) (w' (false, true)) (level - 1) already with
            | none => rw [collect_none_of h1]; simp [d1 h1]
            | some r1 =>
              obtain ⟨t1, e1, f1⟩ := c1 r1 h1
              obtain ⟨c2, d2⟩ := child (true, false) already t1 f1
              simp only [e1]
              cases h2 : traceRec el (c (true, false)) (w' (true, false)) (level - 1) already with
              | none => rw [collect_none_of h2]; simp [d2 h2]
              | some r2 =>
                obtain ⟨t2, e2, f2⟩ := c2 r2 h2
                obtain ⟨c3, d3⟩ := child (true, true) already t2 f2
                simp only [e2]
                cases h3 : traceRec el (c (true, true)) (w' (true, true)) (level - 1) already with
                | none => rw [collect_none_of h3]; simp [d3 h3]
                | some r3 =>
                  obtain ⟨t3, e3, f3⟩ := c3 r3 h3
                  simp only [e3]
                  have hcol : (collect fun b => traceRec el (c b) (w' b) (level - 1) already)
                      = some (fun i => if i = (false, false) then r0 else if i = (false, true) then r1
                      else if i = (true, false) then r2 else r3) := by
                    apply collect_some
                    rintro ⟨i, j⟩
                    cases i <;> cases j <;> simp [h0, h1, h2, h3]
                  rw [hcol]
                  simp only
                  split_ifs
                  · simp
                  · refine ⟨fun r hr => ⟨t3, by rw [← Option.some.inj hr], f3⟩, fun h => by simp at h⟩
where
  collect_none_of {f : RC → Option MEdge} {b : RC} (h : f b = none) : collect f = none := by
    unfold collect
    rw [dif_neg]
    intro h'
    have := h' b
    rw [h] at this
    simp at this

end MQT.DD
