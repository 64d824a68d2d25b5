/-
Reading entries, vectors and matrices from decision diagrams.

Source in /repo, src/dd/Edge.cpp:
   41-82    `getValueByPath`
  177-195   `getValueByIndex` (vectors)
  197-211   `getVector`
  266-290   `traverseVector`
  354-380   `getValueByIndex` (matrices)
  382-405   `getMatrix`
  465-506   `traverseMatrix`

A traversal is modelled by the list of writes (index, value) it performs; `none` is the
exception of `vec.at`.  `std::size_t` indices are natural numbers.
-/
import Verif.DD.Multiply
import Mathlib.Data.Nat.Bitwise
import Mathlib.Data.Nat.Log

set_option autoImplicit false

noncomputable section

open Classical
open Function (update)

namespace MQT.DD

open MQT.IR (Bits State)

/-- The basis state with index `i`. -/
def bitsOf (i : ℕ) : Bits := fun q => i.testBit q

/-! ### Model -/

/-- The loop of `getValueByPath` on a vector; first argument `level`, then the current edge
`r`, the accumulated weight `c` and the decisions. -/
def vpath : ℕ → VEdge → ℂ → Bits → ℂ
  | 0, _, c, _ => c
  | n + 1, r, c, d =>
    match r.p with
    | .term => if r.w = 0 ∨ d n = true then 0 else vpath n r c d
    | .node v w k =>
      if v ≠ n then if d n = true then 0 else vpath n r c d
      else vpath n ⟨k (d n), w (d n)⟩ (c * w (d n)) d

/-- `getValueByIndex` on a vector. -/
def vGetValueByIndex (e : VEdge) (i : ℕ) : ℂ :=
  match e.p with
  | .term => e.w
  | .node v _ _ => vpath (max (Nat.log 2 (i + 1)) (v + 1)) e e.w (bitsOf i)

/-- The writes of `traverseVector` on the edge with node `p` and weight `w`. -/
def traverseV (thr : ℝ) : VNode → ℂ → ℂ → ℕ → List (ℕ × ℂ)
  | .term, w, amp, i => if ‖amp * w‖ < thr then [] else [(i, amp * w)]
  | .node v w' k, w, amp, i =>
    if ‖amp * w‖ < thr then []
    else
      (if w' false ≠ 0 then traverseV thr (k false) (w' false) (amp * w) i else [])
        ++ (if w' true ≠ 0 then traverseV thr (k true) (w' true) (amp * w) (i ||| 1 <<< v) else [])

/-- Performing the writes on an array (`vec.at(i) = c`). -/
def writeAll : List (ℕ × ℂ) → List ℂ → Option (List ℂ)
  | [], a => some a
  | (i, c) :: ws, a => if i < a.length then writeAll ws (a.set i c) else none

/-- `getVector`. -/
def getVector (e : VEdge) (thr : ℝ) : Option (List ℂ) :=
  match e.p with
  | .term => some [e.w]
  | .node v _ _ => writeAll (traverseV thr e.p e.w 1 0) (List.replicate (2 <<< v) 0)

/-- The loop of `getValueByPath` on a matrix; the decision on level `k` is the pair of row
and column bit. -/
def mpath : ℕ → MEdge → ℂ → Bits → Bits → ℂ
  | 0, _, c, _, _ => c
  | n + 1, r, c, x, y =>
    match r.p with
    | .term => if r.w = 0 ∨ x n ≠ y n then 0 else mpath n r c x y
    | .node v w k =>
      if v ≠ n then if x n ≠ y n then 0 else mpath n r c x y
      else mpath n ⟨k (x n, y n), w (x n, y n)⟩ (c * w (x n, y n)) x y

/-- `getValueByIndex` on a matrix. -/
def mGetValueByIndex (e : MEdge) (n i j : ℕ) : ℂ :=
  match e.p with
  | .term => e.w
  | .node _ _ _ => mpath n e e.w (bitsOf i) (bitsOf j)

/-- The writes of `traverseMatrix`; first argument `level`. -/
def traverseM (thr : ℝ) : ℕ → MEdge → ℂ → ℕ → ℕ → List (ℕ × ℕ × ℂ)
  | 0, e, amp, i, j => if ‖amp * e.w‖ < thr then [] else [(i, j, amp * e.w)]
  | n + 1, e, amp, i, j =>
    if ‖amp * e.w‖ < thr then []
    else
      match e.p with
      | .term =>
        traverseM thr n e amp i j ++ traverseM thr n e amp (i ||| 1 <<< n) (j ||| 1 <<< n)
      | .node v w k =>
        if v < n then
          traverseM thr n e amp i j ++ traverseM thr n e amp (i ||| 1 <<< n) (j ||| 1 <<< n)
        else
          rcs.flatMap fun b =>
            if w b ≠ 0 then
              traverseM thr n ⟨k b, w b⟩ (amp * e.w) (if b.1 then i ||| 1 <<< n else i)
                (if b.2 then j ||| 1 <<< n else j)
            else []

/-- `mat.at(i).at(j) = c`. -/
def writeAllM : List (ℕ × ℕ × ℂ) → List (List ℂ) → Option (List (List ℂ))
  | [], a => some a
  | (i, j, c) :: ws, a =>
    match a[i]? with
    | none => none
    | some row => if j < row.length then writeAllM ws (a.set i (row.set j c)) else none

/-- `getMatrix`. -/
def getMatrix (e : MEdge) (n : ℕ) (thr : ℝ) : Option (List (List ℂ)) :=
  if n = 0 then some [[e.w]]
  else writeAllM (traverseM thr n e 1 0 0)
    (List.replicate (1 <<< n) (List.replicate (1 <<< n) 0))

/-! ### Single entries -/

theorem vpath_spec {n : ℕ} {r : VEdge} (h : VECan n r) (c : ℂ) (d : Bits) (hc : r.w = 0 → c = 0) :
    vpath n r c d = c * vval r.p d := by
  induction n generalizing r c with
  | zero =>
    rw [vpath]
    by_cases h0 : r.w = 0
    · rw [hc h0, zero_mul]
    · rw [(h.2 h0).zero_cases, vval, mul_one]
  | succ n ih =>
    by_cases h0 : r.w = 0
    · rw [vpath, h.1 h0, hc h0]
      simp [h0]
    · obtain ⟨w, k, hp, _, h3⟩ := (h.2 h0).cases
      rw [vpath, hp]
      simp only [ne_eq, not_true_eq_false, if_false]
      rw [ih (r := ⟨k (d n), w (d n)⟩) (h3 (d n)) _ (fun hw => by
        have hw : w (d n) = 0 := hw
        rw [hw, mul_zero])]
      simp only [vval]
      ring

theorem vGetValueByIndex_spec {n : ℕ} {e : VEdge} (h : VECan n e) {i : ℕ} (hi : i < 2 ^ n) :
    vGetValueByIndex e i = e.vec (bitsOf i) := by
  by_cases h0 : e.w = 0
  · unfold vGetValueByIndex
    rw [h.1 h0]
    simp [Edge.vec, h0]
  · cases n with
    | zero =>
      unfold vGetValueByIndex Edge.vec
      rw [(h.2 h0).zero_cases]
      simp [vval]
    | succ n =>
      obtain ⟨w, k, hp, _, h3⟩ := (h.2 h0).cases
      unfold vGetValueByIndex
      rw [hp]
      simp only
      have hb : max (Nat.log 2 (i + 1)) (n + 1) = n + 1 := by
        apply max_eq_right
        calc Nat.log 2 (i + 1) ≤ Nat.log 2 (2 ^ (n + 1)) := Nat.log_mono_right (by omega)
          _ = n + 1 := Nat.log_pow (by norm_num) _
      rw [hb, vpath_spec h _ _ (fun h' => h')]
      rfl

theorem mpath_spec {n : ℕ} {r : MEdge} (h : MECan n r) (c : ℂ) (x y : Bits) (hc : r.w = 0 → c = 0) :
    mpath n r c x y = c * mval n r.p x y := by
  induction n generalizing r c with
  | zero => rw [mpath, mval, mul_one]
  | succ n ih =>
    by_cases h0 : r.w = 0
    · rw [mpath, h.1 h0, hc h0]
      simp [h0]
    · have hcan := h.2 h0
      cases hp : r.p with
      | term =>
        rw [mpath, hp, mval, expand]
        by_cases hxy : x n = y n
        · simp only [h0, hxy, false_or, ne_eq, not_true_eq_false, if_false, if_true]
          rw [ih ⟨fun h' => absurd h' h0, fun _ => by rw [hp]; trivial⟩ c hc, hp]
          ring
        · simp [hxy]
      | node v w k =>
        rw [hp] at hcan
        rw [mpath, hp, mval, expand]
        by_cases hv : v = n
        · subst hv
          simp only [ne_eq, not_true_eq_false, if_false, if_true]
          rw [ih (r := ⟨k (x v, y v), w (x v, y v)⟩) (hcan.2.2.2 _) _ (fun hw => by
            have hw : w (x v, y v) = 0 := hw
            rw [hw, mul_zero])]
          ring
        · have hlt : v < n := by have := hcan.1; omega
          by_cases hxy : x n = y n
          · simp only [hxy, hv, ne_eq, not_true_eq_false, not_false_eq_true, if_false, if_true]
            rw [ih ⟨fun h' => absurd h' h0, fun _ => by
              rw [hp]; exact ⟨hlt, hcan.2.1, hcan.2.2.1, hcan.2.2.2⟩⟩ c hc, hp]
            ring
          · simp [hxy, hv]

theorem mGetValueByIndex_spec {n : ℕ} {e : MEdge} (h : MECan n e) (hp : e.p ≠ .term) (i j : ℕ) :
    mGetValueByIndex e n i j = e.mat n (bitsOf i) (bitsOf j) := by
  unfold mGetValueByIndex
  cases hp' : e.p with
  | term => exact absurd hp' hp
  | node v w k =>
    simp only
    rw [mpath_spec h _ _ _ (fun h' => h')]
    rfl

/-! ### Vectors -/

/-- The effect of the writes on an unbounded array. -/
def applyW {κ : Type} [DecidableEq κ] : List (κ × ℂ) → (κ → ℂ) → κ → ℂ
  | [], f => f
  | (i, c) :: ws, f => applyW ws (update f i c)

theorem applyW_append {κ : Type} [DecidableEq κ] (a b : List (κ × ℂ)) (f : κ → ℂ) :
    applyW (a ++ b) f = applyW b (applyW a f) := by
  induction a generalizing f with
  | nil => rfl
  | cons x a ih => obtain ⟨i, c⟩ := x; exact ih _

/-- `j` continues the index `i` from level `n` on. -/
def Ext (n i j : ℕ) : Prop := ∀ q, n ≤ q → j.testBit q = i.testBit q

theorem testBit_or_shift (i n q : ℕ) : (i ||| 1 <<< n).testBit q = (i.testBit q || decide (q = n)) := by
  rw [Nat.testBit_or, Nat.one_shiftLeft, Nat.testBit_two_pow]
  congr 1
  simp [eq_comm]

theorem ext_succ {n i j : ℕ} (hi : i.testBit n = false) :
    Ext (n + 1) i j ↔ Ext n i j ∧ j.testBit n = false ∨ Ext n (i ||| 1 <<< n) j ∧ j.testBit n = true := by
  constructor
  · intro h
    cases hj : j.testBit n with
    | false =>
      left
      refine ⟨fun q hq => ?_, rfl⟩
      rcases Nat.lt_or_ge n q with h' | h'
      · exact h q h'
      · obtain rfl : n = q := by omega
        rw [hj, hi]
    | true =>
      right
      refine ⟨fun q hq => ?_, rfl⟩
      rw [testBit_or_shift]
      rcases Nat.lt_or_ge n q with h' | h'
      · rw [h q h', decide_eq_false (by omega), Bool.or_false]
      · obtain rfl : n = q := by omega
        rw [hj]; simp
  · rintro (⟨h, _⟩ | ⟨h, _⟩) q hq
    · exact h q (by omega)
    · rw [h q (by omega), testBit_or_shift, decide_eq_false (by omega), Bool.or_false]

theorem ext_low {n i j : ℕ} (hi : i.testBit n = false) (h : Ext n i j) : j.testBit n = false := by
  rw [h n le_rfl, hi]

theorem ext_high {n i j : ℕ} (h : Ext n (i ||| 1 <<< n) j) : j.testBit n = true := by
  rw [h n le_rfl, testBit_or_shift]; simp

theorem ext_zero {i j : ℕ} : Ext 0 i j ↔ j = i :=
  ⟨fun h => Nat.eq_of_testBit_eq (fun q => h q (Nat.zero_le q)), fun h q _ => by rw [h]⟩

theorem traverseV_spec {thr : ℝ} (ht : thr ≤ 0) (n : ℕ) (p : VNode) (hp : VCan n p) (w amp : ℂ) (i : ℕ)
    (hi : ∀ q < n, i.testBit q = false) :
    (∀ x ∈ traverseV thr p w amp i, Ext n i x.1) ∧
    ∀ f : ℕ → ℂ, (∀ j, Ext n i j → f j = 0) → ∀ j, applyW (traverseV thr p w amp i) f j
      = if Ext n i j then amp * w * vval p (bitsOf j) else f j := by
  induction n generalizing p w amp i with
  | zero =>
    rw [hp.zero_cases, traverseV, if_neg (not_lt.2 (le_trans ht (norm_nonneg _)))]
    refine ⟨fun x hx => ?_, fun f _ j => ?_⟩
    · rw [List.mem_singleton.1 hx]; exact ext_zero.2 rfl
    · simp only [applyW, ext_zero, vval, mul_one]
      by_cases h : j = i
      · rw [h, Function.update_self, if_pos rfl]
      · rw [Function.update_of_ne h, if_neg h]
  | succ n ih =>
    obtain ⟨w', k, rfl, _, h3⟩ := hp.cases
    rw [traverseV, if_neg (not_lt.2 (le_trans ht (norm_nonneg _)))]
    have hin : i.testBit n = false := hi n (by omega)
    have hlow : ∀ q < n, i.testBit q = false := fun q hq => hi q (by omega)
    have hhigh : ∀ q < n, (i ||| 1 <<< n).testBit q = false := by
      intro q hq
      rw [testBit_or_shift, hlow q hq, decide_eq_false (by omega)]; rfl
    have key : ∀ (b : Bool) (i' : ℕ), (∀ q < n, i'.testBit q = false) →
        (∀ x ∈ (if w' b ≠ 0 then traverseV thr (k b) (w' b) (amp * w) i' else []), Ext n i' x.1) ∧
        ∀ f : ℕ → ℂ, (∀ j, Ext n i' j → f j = 0) → ∀ j,
          applyW (if w' b ≠ 0 then traverseV thr (k b) (w' b) (amp * w) i' else []) f j
          = if Ext n i' j then amp * w * (w' b * vval (k b) (bitsOf j)) else f j := by
      intro b i' hi'
      by_cases hb : w' b = 0
      · rw [if_neg (by simpa using hb)]
        refine ⟨by simp, fun f hf j => ?_⟩
        rw [applyW, hb]
        by_cases hj : Ext n i' j
        · rw [if_pos hj, hf j hj]; ring
        · rw [if_neg hj]
      · rw [if_pos hb]
        obtain ⟨a1, a2⟩ := ih (k b) ((h3 b).2 hb) (w' b) (amp * w) i' hi'
        refine ⟨a1, fun f hf j => ?_⟩
        rw [a2 f hf j]
        split_ifs
        · ring
        · rfl
    obtain ⟨f1, f2⟩ := key false i hlow
    obtain ⟨t1, t2⟩ := key true (i ||| 1 <<< n) hhigh
    constructor
    · intro x hx
      rcases List.mem_append.1 hx with hx | hx
      · exact (ext_succ hin).2 (Or.inl ⟨f1 x hx, ext_low hin (f1 x hx)⟩)
      · exact (ext_succ hin).2 (Or.inr ⟨t1 x hx, ext_high (t1 x hx)⟩)
    · intro f hf j
      have g1 : ∀ j, Ext n i j → f j = 0 := fun j hj =>
        hf j ((ext_succ hin).2 (Or.inl ⟨hj, ext_low hin hj⟩))
      have g2 : ∀ j, Ext n (i ||| 1 <<< n) j → f j = 0 := fun j hj =>
        hf j ((ext_succ hin).2 (Or.inr ⟨hj, ext_high hj⟩))
      rw [applyW_append, t2, f2 f g1]
      · by_cases h1 : Ext n (i ||| 1 <<< n) j
        · have hb : bitsOf j n = true := ext_high h1
          rw [if_pos h1, if_pos ((ext_succ hin).2 (Or.inr ⟨h1, ext_high h1⟩)), vval, hb]
        · rw [if_neg h1]
          by_cases h2 : Ext n i j
          · have hb : bitsOf j n = false := ext_low hin h2
            rw [if_pos h2, if_pos ((ext_succ hin).2 (Or.inl ⟨h2, ext_low hin h2⟩)), vval, hb]
          · rw [if_neg h2, if_neg]
            intro h
            rcases (ext_succ hin).1 h with h | h
            · exact h2 h.1
            · exact h1 h.1
      · intro j hj
        rw [f2 f g1, if_neg, g2 j hj]
        intro h
        have a := ext_low hin h
        rw [ext_high hj] at a
        exact absurd a (by simp)

/-- An array seen as a function. -/
def arrFun (a : List ℂ) : ℕ → ℂ := fun i => a.getD i 0

theorem writeAll_spec (ws : List (ℕ × ℂ)) (a : List ℂ) (h : ∀ x ∈ ws, x.1 < a.length) :
    ∃ r, writeAll ws a = some r ∧ r.length = a.length ∧ ∀ i < a.length, r.getD i 0 = applyW ws (arrFun a) i := by
  induction ws generalizing a with
  | nil => exact ⟨a, rfl, rfl, fun i _ => rfl⟩
  | cons x ws ih =>
    obtain ⟨i, c⟩ := x
    have hi : i < a.length := h (i, c) List.mem_cons_self
    obtain ⟨r, h1, h2, h3⟩ := ih (a.set i c) (fun x hx => by
      rw [List.length_set]; exact h x (List.mem_cons_of_mem _ hx))
    refine ⟨r, by rw [writeAll, if_pos hi, h1], by rw [h2, List.length_set], fun j hj => ?_⟩
    rw [h3 j (by rw [List.length_set]; exact hj), applyW]
    congr 1
    funext q
    unfold arrFun
    by_cases hq : q = i
    · subst hq
      rw [Function.update_self, List.getD_eq_getElem?_getD, List.getElem?_set_self hi]; rfl
    · rw [Function.update_of_ne hq, List.getD_eq_getElem?_getD, List.getElem?_set_ne (Ne.symm hq),
        List.getD_eq_getElem?_getD]

theorem ext_root {n j : ℕ} : Ext n 0 j ↔ j < 2 ^ n := by
  constructor
  · intro h
    apply Nat.lt_pow_two_of_testBit
    intro q hq
    rw [h q hq, Nat.zero_testBit]
  · intro h q hq
    rw [Nat.zero_testBit, Nat.testBit_lt_two_pow (lt_of_lt_of_le h (Nat.pow_le_pow_right (by norm_num) hq))]

theorem list_ext_getD {a b : List ℂ} (hl : a.length = b.length)
    (h : ∀ i < a.length, a.getD i 0 = b.getD i 0) : a = b := by
  apply List.ext_getElem hl
  intro i h1 h2
  have := h i h1
  rwa [List.getD_eq_getElem _ _ h1, List.getD_eq_getElem _ _ h2] at this

theorem getVector_spec {n : ℕ} {e : VEdge} (h : VCan n e.p) {thr : ℝ} (ht : thr ≤ 0) :
    getVector e thr = some ((List.range (2 ^ n)).map (fun i => e.vec (bitsOf i))) := by
  unfold getVector
  cases n with
  | zero =>
    rw [h.zero_cases]
    simp [Edge.vec, h.zero_cases, vval]
  | succ n =>
    obtain ⟨w, k, hp, _, _⟩ := h.cases
    have hsp := traverseV_spec ht (n + 1) e.p h e.w 1 0 (fun q _ => Nat.zero_testBit q)
    rw [hp] at hsp ⊢
    simp only
    have hdim : 2 <<< n = 2 ^ (n + 1) := by rw [Nat.shiftLeft_eq, pow_succ]; ring
    obtain ⟨r, h1, h2, h3⟩ := writeAll_spec (traverseV thr (.node n w k) e.w 1 0)
      (List.replicate (2 <<< n) 0) (fun x hx => by
        rw [List.length_replicate, hdim]; exact ext_root.1 (hsp.1 x hx))
    rw [h1]
    congr 1
    rw [List.length_replicate, hdim] at h2 h3
    apply list_ext_getD
    · rw [h2]; simp
    · intro i hi
      rw [h2] at hi
      rw [h3 i hi, hsp.2 _ (fun j _ => by
        unfold arrFun
        rw [List.getD_eq_getElem?_getD, List.getElem?_replicate]
        split_ifs <;> rfl), if_pos (ext_root.2 hi), List.getD_eq_getElem _ _ (by simpa using hi)]
      simp [Edge.vec, hp]

/-! ### Matrices -/

theorem traverseM_spec {thr : ℝ} (ht : thr ≤ 0) (n : ℕ) (e : MEdge) (he : MECan n e) (amp : ℂ) (i j : ℕ)
    (hi : ∀ q < n, i.testBit q = false) (hj : ∀ q < n, j.testBit q = false) :
    (∀ x ∈ traverseM thr n e amp i j, Ext n i x.1 ∧ Ext n j x.2.1) ∧
    ∀ f : ℕ × ℕ → ℂ, (∀ r c, Ext n i r → Ext n j c → f (r, c) = 0) → ∀ r c,
      applyW ((traverseM thr n e amp i j).map (fun x => ((x.1, x.2.1), x.2.2))) f (r, c)
      = if Ext n i r ∧ Ext n j c then amp * e.mat n (bitsOf r) (bitsOf c) else f (r, c) := by
  induction n generalizing e amp i j with
  | zero =>
    rw [traverseM, if_neg (not_lt.2 (le_trans ht (norm_nonneg _)))]
    refine ⟨fun x hx => ?_, fun f _ r c => ?_⟩
    · rw [List.mem_singleton.1 hx]; exact ⟨ext_zero.2 rfl, ext_zero.2 rfl⟩
    · simp only [List.map, applyW, ext_zero, Edge.mat, mval, mul_one]
      by_cases h : r = i ∧ c = j
      · rw [h.1, h.2, Function.update_self, if_pos ⟨rfl, rfl⟩]
      · rw [Function.update_of_ne (by simpa [Prod.ext_iff] using h), if_neg h]
  | succ n ih =>
    have hin : i.testBit n = false := hi n (by omega)
    have hjn : j.testBit n = false := hj n (by omega)
    let up : Bool → ℕ → ℕ := fun b k => if b then k ||| 1 <<< n else k
    have hup : ∀ b k, (∀ q < n + 1, k.testBit q = false) → ∀ q < n, (up b k).testBit q = false := by
      intro b k hk q hq
      cases b
      · exact hk q (by omega)
      · show (k ||| 1 <<< n).testBit q = false
        rw [testBit_or_shift, hk q (by omega), decide_eq_false (by omega)]; rfl
    have hupn : ∀ b k r, k.testBit n = false → Ext n (up b k) r → bitsOf r n = b := by
      intro b k r hk hr
      cases b
      · exact ext_low hk hr
      · exact ext_high hr
    have hext : ∀ k r, k.testBit n = false → (Ext (n + 1) k r ↔ Ext n (up (bitsOf r n) k) r) := by
      intro k r hk
      rw [ext_succ hk]
      cases hb : bitsOf r n
      · have hb' : r.testBit n = false := hb
        simp [up, hb']
      · have hb' : r.testBit n = true := hb
        simp [up, hb']
    -- traversing some of the four blocks, in the order of `rcs`
    have blocks : ∀ (g : RC → List (ℕ × ℕ × ℂ)) (val : RC → ℕ → ℕ → ℂ),
        (∀ b, (∀ x ∈ g b, Ext n (up b.1 i) x.1 ∧ Ext n (up b.2 j) x.2.1) ∧
          ∀ f : ℕ × ℕ → ℂ, (∀ r c, Ext n (up b.1 i) r → Ext n (up b.2 j) c → f (r, c) = 0) → ∀ r c,
          applyW ((g b).map (fun x => ((x.1, x.2.1), x.2.2))) f (r, c)
            = if Ext n (up b.1 i) r ∧ Ext n (up b.2 j) c then val b r c else f (r, c)) →
        ∀ l : List RC, l.Nodup →
        (∀ x ∈ l.flatMap g, Ext (n + 1) i x.1 ∧ Ext (n + 1) j x.2.1) ∧
        ∀ f : ℕ × ℕ → ℂ, (∀ r c, Ext (n + 1) i r → Ext (n + 1) j c → f (r, c) = 0) → ∀ r c,
          applyW ((l.flatMap g).map (fun x => ((x.1, x.2.1), x.2.2))) f (r, c)
            = if (Ext (n + 1) i r ∧ Ext (n + 1) j c) ∧ (bitsOf r n, bitsOf c n) ∈ l then
                val (bitsOf r n, bitsOf c n) r c else f (r, c) := by
      intro g val hg l
      induction l using List.reverseRecOn with
      | nil => intro _; exact ⟨by simp, fun f _ r c => by simp [applyW]⟩
      | append_singleton l b ihl =>
        intro hl
        have hnd := List.nodup_append.1 hl
        obtain ⟨l1, l2⟩ := ihl hnd.1
        obtain ⟨g1, g2⟩ := hg b
        have hbl : b ∉ l := fun h => (hnd.2.2 b h b (by simp)) rfl
        have toBig : ∀ r c, Ext n (up b.1 i) r → Ext n (up b.2 j) c →
            Ext (n + 1) i r ∧ Ext (n + 1) j c := by
          intro r c hr hc
          exact ⟨(hext i r hin).2 (by rw [hupn _ _ _ hin hr]; exact hr),
            (hext j c hjn).2 (by rw [hupn _ _ _ hjn hc]; exact hc)⟩
        constructor
        · intro x hx
          rw [List.flatMap_append] at hx
          rcases List.mem_append.1 hx with hx | hx
          · exact l1 x hx
          · simp only [List.flatMap_cons, List.flatMap_nil, List.append_nil] at hx
            exact toBig _ _ (g1 x hx).1 (g1 x hx).2
        · intro f hf r c
          rw [List.flatMap_append, List.map_append, applyW_append]
          simp only [List.flatMap_cons, List.flatMap_nil, List.append_nil]
          rw [g2]
          · rw [l2 f hf]
            by_cases h1 : Ext n (up b.1 i) r ∧ Ext n (up b.2 j) c
            · have hb : (bitsOf r n, bitsOf c n) = b :=
                Prod.ext (hupn _ _ _ hin h1.1) (hupn _ _ _ hjn h1.2)
              rw [if_pos h1, if_pos ⟨toBig r c h1.1 h1.2, by rw [hb]; simp⟩, hb]
            · rw [if_neg h1]
              by_cases h2 : (Ext (n + 1) i r ∧ Ext (n + 1) j c) ∧ (bitsOf r n, bitsOf c n) ∈ l
              · rw [if_pos h2, if_pos ⟨h2.1, List.mem_append_left _ h2.2⟩]
              · rw [if_neg h2, if_neg]
                rintro ⟨h3, h4⟩
                rcases List.mem_append.1 h4 with h4 | h4
                · exact h2 ⟨h3, h4⟩
                · apply h1
                  have hb := List.mem_singleton.1 h4
                  rw [← hb]
                  exact ⟨(hext i r hin).1 h3.1, (hext j c hjn).1 h3.2⟩
          · intro r c hr hc
            have hb : (bitsOf r n, bitsOf c n) = b :=
              Prod.ext (hupn _ _ _ hin hr) (hupn _ _ _ hjn hc)
            have hbig := toBig r c hr hc
            rw [l2 f hf, if_neg, hf r c hbig.1 hbig.2]
            rintro ⟨_, h⟩
            rw [hb] at h
            exact hbl h
    have skip : ∀ (hexp : ∀ b, (expand n e.p b) = if b.1 = b.2 then ⟨e.p, 1⟩ else .zero) (hok : MECan n e),
        (∀ x ∈ traverseM thr n e amp i j ++ traverseM thr n e amp (i ||| 1 <<< n) (j ||| 1 <<< n),
          Ext (n + 1) i x.1 ∧ Ext (n + 1) j x.2.1) ∧
        ∀ f : ℕ × ℕ → ℂ, (∀ r c, Ext (n + 1) i r → Ext (n + 1) j c → f (r, c) = 0) → ∀ r c,
          applyW ((traverseM thr n e amp i j ++
            traverseM thr n e amp (i ||| 1 <<< n) (j ||| 1 <<< n)).map
              (fun x => ((x.1, x.2.1), x.2.2))) f (r, c)
          = if Ext (n + 1) i r ∧ Ext (n + 1) j c then amp * e.mat (n + 1) (bitsOf r) (bitsOf c)
            else f (r, c) := by
      intro hexp hok
      obtain ⟨b1, b2⟩ := blocks
        (fun b => if b.1 = b.2 then traverseM thr n e amp (up b.1 i) (up b.2 j) else [])
        (fun b r c => if b.1 = b.2 then amp * e.mat n (bitsOf r) (bitsOf c) else 0)
        (by
          rintro ⟨p, q⟩
          by_cases hpq : p = q
          · simp only [hpq, if_true]
            exact ih e hok amp _ _ (hup q i hi) (hup q j hj)
          · simp only [if_neg hpq]
            refine ⟨by simp, fun f hf r c => ?_⟩
            rw [List.map_nil, applyW]
            by_cases h : Ext n (up p i) r ∧ Ext n (up q j) c
            · rw [if_pos h, hf r c h.1 h.2]
            · rw [if_neg h]) rcs (by decide)
      have hl : rcs.flatMap (fun b => if b.1 = b.2 then traverseM thr n e amp (up b.1 i) (up b.2 j) else [])
          = traverseM thr n e amp i j ++ traverseM thr n e amp (i ||| 1 <<< n) (j ||| 1 <<< n) := by
        simp [rcs, up]
      rw [hl] at b1 b2
      refine ⟨b1, fun f hf r c => ?_⟩
      rw [b2 f hf]
      by_cases h : Ext (n + 1) i r ∧ Ext (n + 1) j c
      · rw [if_pos ⟨h, mem_rcs _⟩, if_pos h, mat_succ, hexp]
        by_cases hb : bitsOf r n = bitsOf c n
        · simp only [hb, if_true]; simp only [Edge.mat]; ring
        · simp [hb]
      · rw [if_neg (fun h' => h h'.1), if_neg h]
    rw [traverseM, if_neg (not_lt.2 (le_trans ht (norm_nonneg _)))]
    cases hp : e.p with
    | term =>
      simp only
      exact skip (fun b => by rw [hp]; rfl) ⟨fun _ => hp, fun _ => by rw [hp]; trivial⟩
    | node v w k =>
      simp only
      have hw0 : e.w ≠ 0 := fun h0 => by rw [he.1 h0] at hp; cases hp
      by_cases hv : v < n
      · rw [if_pos hv]
        refine skip (fun b => ?_) ⟨fun h0 => absurd h0 hw0, fun h0 => ?_⟩
        · rw [hp, expand, if_neg (by omega)]
        · have := he.2 h0
          rw [hp] at this ⊢
          exact ⟨hv, this.2⟩
      · rw [if_neg hv]
        · have hcan := he.2 hw0
          rw [hp] at hcan
          obtain rfl : v = n := by have := hcan.1; omega
          obtain ⟨b1, b2⟩ := blocks
            (fun b => if w b ≠ 0 then traverseM thr v ⟨k b, w b⟩ (amp * e.w) (up b.1 i) (up b.2 j) else [])
            (fun b r c => amp * e.w * (⟨k b, w b⟩ : MEdge).mat v (bitsOf r) (bitsOf c))
            (by
              intro b
              by_cases hb : w b = 0
              · simp only [hb, ne_eq, not_true_eq_false, if_false]
                refine ⟨by simp, fun f hf r c => ?_⟩
                rw [List.map_nil, applyW]
                by_cases h : Ext v (up b.1 i) r ∧ Ext v (up b.2 j) c
                · rw [if_pos h, hf r c h.1 h.2]; simp [Edge.mat]
                · rw [if_neg h]
              · simp only [if_pos hb]
                exact ih ⟨k b, w b⟩ (hcan.2.2.2 b) (amp * e.w) _ _ (hup b.1 i hi) (hup b.2 j hj))
            rcs (by decide)
          refine ⟨b1, fun f hf r c => ?_⟩
          rw [b2 f hf]
          by_cases h : Ext (v + 1) i r ∧ Ext (v + 1) j c
          · rw [if_pos ⟨h, mem_rcs _⟩, if_pos h, mat_succ, hp, expand]
            simp only [if_true, Edge.mat]
            ring
          · rw [if_neg (fun h' => h h'.1), if_neg h]

/-- A square array seen as a function. -/
def matFun (a : List (List ℂ)) : ℕ × ℕ → ℂ := fun ij => (a.getD ij.1 []).getD ij.2 0

theorem writeAllM_spec (N : ℕ) (ws : List (ℕ × ℕ × ℂ)) (a : List (List ℂ)) (hN : a.length = N)
    (hrow : ∀ row ∈ a, row.length = N) (h : ∀ x ∈ ws, x.1 < N ∧ x.2.1 < N) :
    ∃ r, writeAllM ws a = some r ∧ r.length = N ∧ (∀ row ∈ r, row.length = N) ∧
      matFun r = applyW (ws.map (fun x => ((x.1, x.2.1), x.2.2))) (matFun a) := by
  induction ws generalizing a with
  | nil => exact ⟨a, rfl, hN, hrow, rfl⟩
  | cons x ws ih =>
    obtain ⟨i, j, c⟩ := x
    obtain ⟨hi, hj⟩ := h (i, j, c) List.mem_cons_self
    have hi' : i < a.length := by rw [hN]; exact hi
    have hrl : (a[i]).length = N := hrow _ (List.getElem_mem hi')
    obtain ⟨r, h1, h2, h3, h4⟩ := ih (a.set i (a[i].set j c)) (by rw [List.length_set, hN])
      (fun row hr => by
        rcases List.mem_or_eq_of_mem_set hr with hr | rfl
        · exact hrow row hr
        · rw [List.length_set, hrl]) (fun x hx => h x (List.mem_cons_of_mem _ hx))
    refine ⟨r, ?_, h2, h3, ?_⟩
    · rw [writeAllM, List.getElem?_eq_getElem hi']
      simp only
      rw [if_pos (by rw [hrl]; exact hj), h1]
    · rw [h4, List.map_cons, applyW]
      congr 1
      funext ⟨p, q⟩
      unfold matFun
      simp only [List.getD_eq_getElem?_getD]
      by_cases hp : p = i
      · subst hp
        rw [List.getElem?_set_self hi', Option.getD_some]
        by_cases hq : q = j
        · subst hq
          rw [List.getElem?_set_self (by rw [hrl]; exact hj), Function.update_self]; rfl
        · rw [List.getElem?_set_ne (Ne.symm hq), Function.update_of_ne (by simpa using hq),
            List.getElem?_eq_getElem hi']
          rfl
      · rw [List.getElem?_set_ne (Ne.symm hp), Function.update_of_ne (by simp [hp])]

/-- The matrix with the given entries, as nested lists. -/
def tabulate (N : ℕ) (f : ℕ → ℕ → ℂ) : List (List ℂ) :=
  (List.range N).map fun i => (List.range N).map fun j => f i j

theorem eq_tabulate {N : ℕ} {a : List (List ℂ)} {f : ℕ → ℕ → ℂ} (h1 : a.length = N)
    (h2 : ∀ row ∈ a, row.length = N) (h3 : ∀ i < N, ∀ j < N, matFun a (i, j) = f i j) :
    a = tabulate N f := by
  apply List.ext_getElem
  · simp [tabulate, h1]
  · intro i hi hi'
    have hiN : i < N := by rw [← h1]; exact hi
    have hl := h2 _ (List.getElem_mem hi)
    simp only [tabulate, List.getElem_map, List.getElem_range]
    apply List.ext_getElem
    · simp [hl]
    · intro j hj hj'
      have hjN : j < N := by rw [← hl]; exact hj
      have := h3 i hiN j hjN
      unfold matFun at this
      simp only at this
      rw [List.getD_eq_getElem _ _ hi, List.getD_eq_getElem _ _ hj] at this
      rw [this]
      simp

theorem getMatrix_spec {n : ℕ} {e : MEdge} (h : MECan n e) {thr : ℝ} (ht : thr ≤ 0) :
    getMatrix e n thr = some (tabulate (2 ^ n) (fun i j => e.mat n (bitsOf i) (bitsOf j))) := by
  unfold getMatrix
  split_ifs with hn
  · subst hn
    simp [tabulate, Edge.mat, mval]
  · obtain ⟨s1, s2⟩ := traverseM_spec ht n e h 1 0 0 (fun q _ => Nat.zero_testBit q)
      (fun q _ => Nat.zero_testBit q)
    have hdim : 1 <<< n = 2 ^ n := Nat.one_shiftLeft n
    obtain ⟨r, h1, h2, h3, h4⟩ := writeAllM_spec (2 ^ n) (traverseM thr n e 1 0 0)
      (List.replicate (1 <<< n) (List.replicate (1 <<< n) 0)) (by simp [hdim])
      (fun row hr => by rw [(List.mem_replicate.1 hr).2]; simp [hdim])
      (fun x hx => ⟨ext_root.1 (s1 x hx).1, ext_root.1 (s1 x hx).2⟩)
    rw [h1]
    congr 1
    apply eq_tabulate h2 h3
    intro i hi j hj
    rw [h4, s2 _ (fun r c _ _ => by
      unfold matFun
      simp only [List.getD_eq_getElem?_getD, List.getElem?_replicate]
      split_ifs
      · simp only [Option.getD_some, List.getElem?_replicate]; split_ifs <;> rfl
      · rfl), if_pos ⟨ext_root.2 hi, ext_root.2 hj⟩, one_mul]

end MQT.DD
