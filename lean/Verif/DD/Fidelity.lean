/-
The fidelity of measurement outcomes (`fidelityOfMeasurementOutcomes`).

Source in /repo: src/dd/Package.cpp 936-944, 987-1024; include/mqt-core/dd/DDDefinitions.hpp 101-110 (`intToBinaryString`).

Simplifications: see DD/Basic.lean; indices are natural numbers (the code has 64 bits).
-/
import Verif.DD.Read
import Mathlib.Algebra.BigOperators.Intervals

set_option autoImplicit false

noncomputable section

open Classical

namespace MQT.DD

open MQT.IR (Bits)

/-! ### Model -/

/-- `intToBinaryString` (DDDefinitions.hpp 101-110): the most significant bit comes first. -/
def binaryString (i n : ℕ) : List Bool := (List.range n).map fun p => i.testBit (n - 1 - p)

/-- `std::stoull(s, nullptr, 2)`. -/
def parseBinary (s : List Bool) : ℕ := s.foldl (fun a b => 2 * a + b.toNat) 0

/-- The loop over the permutation (Package.cpp 996-998): pairs of physical and logical qubits.  Undefined for accesses beyond the
ends of the strings. -/
def filterString (s : List Bool) : List (ℕ × ℕ) → List Bool → Option (List Bool)
  | [], f => some f
  | (p, l) :: r, f =>
    match s[p]? with
    | some b => if l < f.length then filterString s r (f.set l b) else none
    | none => none

/-- The index that is looked up (Package.cpp 992-1000). -/
def outcomeIndex (perm : List (ℕ × ℕ)) (n i : ℕ) : Option ℕ :=
  if perm = [] then some i
  else (filterString (binaryString i n) perm (List.replicate perm.length false)).map parseBinary

/-- The square root of the probability, 0 for an absent key (Package.cpp 1001-1004). -/
def rootProb (P : ℕ → Option ℝ) (i : ℕ) : ℝ :=
  match P i with
  | some p => √p
  | none => 0

/-- `fidelityOfMeasurementOutcomesRecursive` (Package.cpp 987-1024). -/
def fidRec (P : ℕ → Option ℝ) (perm : List (ℕ × ℕ)) (n : ℕ) : VNode → ℂ → ℕ → Option ℝ
  | .term, w, i => (outcomeIndex perm n i).map fun k => ‖w‖ * rootProb P k
  | .node v ws c, w, i =>
    (if ws false = 0 then some 0 else fidRec P perm n (c false) (ws false) i).bind fun l =>
    (if ws true = 0 then some 0 else fidRec P perm n (c true) (ws true) (i ||| 1 <<< v)).bind fun r =>
    some (‖w‖ * (l + r))

/-- `fidelityOfMeasurementOutcomes` (Package.cpp 936-944).  Undefined for a terminal (the level of a null pointer is read). -/
def fidelityOutcomes (e : VEdge) (P : ℕ → Option ℝ) (perm : List (ℕ × ℕ)) : Option ℝ :=
  if e.w = 0 then some 0
  else match e.p with
    | .term => none
    | .node v ws c => fidRec P perm (v + 1) (.node v ws c) e.w 0

/-! ### Specification -/

/-- The square root of the probability of an outcome; outcomes that are not given have probability 0. -/
def rootOf (P : ℕ → Option ℝ) (i : ℕ) : ℝ := √((P i).getD 0)

/-- The outcome after the physical qubits have been renamed to logical ones: bit `l` is the bit of the physical qubit `p`. -/
def outcome (perm : List (ℕ × ℕ)) (x : Bits) : ℕ := (perm.map fun a => (x a.1).toNat * 2 ^ a.2).sum

/-- The same for numbers of qubits counted from the other end. -/
def mirror (n m : ℕ) (perm : List (ℕ × ℕ)) : List (ℕ × ℕ) := perm.map fun a => (n - 1 - a.1, m - 1 - a.2)

/-- Different logical qubits, and physical qubits of the state. -/
structure PermOk (n : ℕ) (perm : List (ℕ × ℕ)) : Prop where
  nodup : (perm.map Prod.snd).Nodup
  phys : ∀ a ∈ perm, a.1 < n
  log : ∀ a ∈ perm, a.2 < perm.length

/-! ### Lemmas -/

/-- The value of a string. -/
def strVal (s : List Bool) : ℕ := ∑ j ∈ Finset.range s.length, (s.getD j false).toNat * 2 ^ (s.length - 1 - j)

theorem parseBinary_eq (s : List Bool) : parseBinary s = strVal s := by
  unfold parseBinary strVal
  induction s using List.reverseRecOn with
  | nil => rfl
  | append_singleton s b ih =>
    rw [List.foldl_append, ih, List.length_append, List.length_singleton, Finset.sum_range_succ]
    simp only [List.foldl_cons, List.foldl_nil]
    congr 1
    · rw [Finset.mul_sum]
      apply Finset.sum_congr rfl
      intro j hj
      have hj := Finset.mem_range.1 hj
      rw [List.getD_eq_getElem?_getD, List.getD_eq_getElem?_getD, List.getElem?_append_left hj,
        show s.length + 1 - 1 - j = (s.length - 1 - j) + 1 by omega, pow_succ]
      ring
    · simp

theorem strVal_set {s : List Bool} {l : ℕ} (hl : l < s.length) (h0 : s.getD l false = false) (b : Bool) :
    strVal (s.set l b) = strVal s + b.toNat * 2 ^ (s.length - 1 - l) := by
  unfold strVal
  rw [List.length_set, ← Finset.add_sum_erase _ _ (Finset.mem_range.2 hl), ← Finset.add_sum_erase (Finset.range s.length) _ (Finset.mem_range.2 hl), h0]
  have h1 : (s.set l b).getD l false = b := by
    rw [List.getD_eq_getElem?_getD, List.getElem?_set_self hl]
    rfl
  have h2 : ∀ j ∈ (Finset.range s.length).erase l, ((s.set l b).getD j false).toNat * 2 ^ (s.length - 1 - j) =
      (s.getD j false).toNat * 2 ^ (s.length - 1 - j) := by
    intro j hj
    rw [List.getD_eq_getElem?_getD, List.getElem?_set_ne (Finset.ne_of_mem_erase hj).symm, ← List.getD_eq_getElem?_getD]
  rw [h1, Finset.sum_congr rfl h2]
  simp
  ring

theorem filterString_spec {s : List Bool} : ∀ {perm : List (ℕ × ℕ)} {f : List Bool}, (perm.map Prod.snd).Nodup →
    (∀ a ∈ perm, a.1 < s.length) → (∀ a ∈ perm, a.2 < f.length) → (∀ a ∈ perm, f.getD a.2 false = false) →
    ∃ g, filterString s perm f = some g ∧
      strVal g = strVal f + (perm.map fun a => (s.getD a.1 false).toNat * 2 ^ (f.length - 1 - a.2)).sum := by
  intro perm
  induction perm with
  | nil => exact fun _ _ _ _ => ⟨_, rfl, by simp⟩
  | cons a r ih =>
    intro f hn hp hl h0
    obtain ⟨n1, n2⟩ := List.nodup_cons.1 (by simpa only [List.map_cons] using hn)
    have ha := hp a List.mem_cons_self
    have hla := hl a List.mem_cons_self
    obtain ⟨p, l⟩ := a
    have hs : s[p]? = some (s.getD p false) := by
      rw [List.getD_eq_getElem?_getD, List.getElem?_eq_getElem ha]
      rfl
    unfold filterString
    rw [hs]
    simp only
    rw [if_pos hla]
    obtain ⟨g, e, hv⟩ := ih (f := f.set l (s.getD p false)) n2 (fun a ha => hp a (List.mem_cons_of_mem _ ha))
      (fun a ha => by rw [List.length_set]; exact hl a (List.mem_cons_of_mem _ ha))
      (fun a har => by
        have hne : l ≠ a.2 := by
          rintro rfl
          exact n1 (List.mem_map.2 ⟨a, har, rfl⟩)
        rw [List.getD_eq_getElem?_getD, List.getElem?_set_ne hne, ← List.getD_eq_getElem?_getD]
        exact h0 a (List.mem_cons_of_mem _ har))
    refine ⟨g, e, ?_⟩
    rw [hv, strVal_set hla (h0 _ List.mem_cons_self), List.length_set, List.map_cons, List.sum_cons]
    simp only
    ring

/-- The index that is looked up counts the qubits from the other end, on both sides. -/
theorem outcomeIndex_spec {n : ℕ} {perm : List (ℕ × ℕ)} (h : PermOk n perm) (hne : perm ≠ []) (i : ℕ) :
    outcomeIndex perm n i = some (outcome (mirror n perm.length perm) (bitsOf i)) := by
  unfold outcomeIndex
  rw [if_neg hne]
  obtain ⟨g, e, hv⟩ := filterString_spec (s := binaryString i n) (perm := perm) (f := List.replicate perm.length false) h.nodup
    (fun a ha => by unfold binaryString; simpa using h.phys a ha) (fun a ha => by simpa using h.log a ha)
    (fun a ha => by
      rw [List.getD_eq_getElem?_getD, List.getElem?_replicate]
      split <;> rfl)
  have h0 : strVal (List.replicate perm.length false) = 0 := by
    unfold strVal
    apply Finset.sum_eq_zero
    intro j hj
    rw [List.getD_eq_getElem?_getD, List.getElem?_replicate]
    split <;> simp
  rw [e, Option.map_some, parseBinary_eq, hv, h0, zero_add]
  unfold outcome mirror
  rw [List.map_map]
  congr 2
  apply List.map_congr_left
  intro a ha
  have hb : (binaryString i n).getD a.1 false = i.testBit (n - 1 - a.1) := by
    unfold binaryString
    rw [List.getD_eq_getElem?_getD, List.getElem?_map, List.getElem?_range (h.phys a ha)]
    rfl
  rw [hb, List.length_replicate]
  rfl

theorem testBit_low {n a k : ℕ} (hk : k < 2 ^ n) : (2 ^ (n + 1) * a + k).testBit n = false := by
  rw [Nat.testBit_eq_decide_div_mod_eq, pow_succ, mul_assoc, Nat.mul_add_div (by positivity), Nat.div_eq_of_lt hk, add_zero,
    Nat.mul_mod_right]
  rfl

theorem testBit_high {n a k : ℕ} (hk : k < 2 ^ n) : (2 ^ (n + 1) * a + (2 ^ n + k)).testBit n = true := by
  rw [show 2 ^ (n + 1) * a + (2 ^ n + k) = 2 ^ n * (2 * a + 1) + k by ring, Nat.testBit_eq_decide_div_mod_eq,
    Nat.mul_add_div (by positivity), Nat.div_eq_of_lt hk, add_zero]
  simp

theorem or_shift {n a : ℕ} : (2 ^ (n + 1) * a) ||| 1 <<< n = 2 ^ (n + 1) * a + 2 ^ n := by
  rw [Nat.one_shiftLeft, ← Nat.two_pow_add_eq_or_of_lt (Nat.pow_lt_pow_right (by norm_num) (Nat.lt_succ_self n))]

theorem rootProb_eq : rootProb = rootOf := by
  funext P i
  unfold rootProb rootOf
  cases P i <;> simp

/-- The recursion, given the roots of the probabilities of the outcomes. -/
theorem fidRec_spec (P : ℕ → Option ℝ) (perm : List (ℕ × ℕ)) (N : ℕ) (L : ℕ → ℕ) (hL : ∀ i, outcomeIndex perm N i = some (L i)) (p : VNode) :
    ∀ (n : ℕ) (w : ℂ) (a : ℕ), VCan n p → fidRec P perm N p w (2 ^ n * a) =
      some (‖w‖ * ∑ k ∈ Finset.range (2 ^ n), ‖vval p (bitsOf (2 ^ n * a + k))‖ * rootProb P (L (2 ^ n * a + k))) := by
  induction p with
  | term =>
    intro n w a h
    have h : n = 0 := h
    subst h
    unfold fidRec
    rw [hL]
    simp [vval]
  | node v ws c ih =>
    intro n w a h
    obtain ⟨rfl, -, hc⟩ := h
    unfold fidRec
    have key : ∀ (b : Bool) (a' : ℕ), (∀ k < 2 ^ v, (2 ^ v * a' + k).testBit v = b) →
        (if ws b = 0 then some 0 else fidRec P perm N (c b) (ws b) (2 ^ v * a')) =
          some (∑ k ∈ Finset.range (2 ^ v), ‖vval (.node v ws c) (bitsOf (2 ^ v * a' + k))‖ * rootProb P (L (2 ^ v * a' + k))) := by
      intro b a' hb
      have hs : ∀ k ∈ Finset.range (2 ^ v), ‖vval (.node v ws c) (bitsOf (2 ^ v * a' + k))‖ * rootProb P (L (2 ^ v * a' + k)) =
          ‖ws b‖ * (‖vval (c b) (bitsOf (2 ^ v * a' + k))‖ * rootProb P (L (2 ^ v * a' + k))) := by
        intro k hk
        have : bitsOf (2 ^ v * a' + k) v = b := hb k (Finset.mem_range.1 hk)
        rw [vval, this, norm_mul, mul_assoc]
      rw [Finset.sum_congr rfl hs, ← Finset.mul_sum]
      split
      next h0 => rw [h0, norm_zero, zero_mul]
      next h0 => rw [ih b v (ws b) a' ((hc b).2 h0)]
    have e1 : 2 ^ (v + 1) * a = 2 ^ v * (2 * a) := by ring
    have e2 : 2 ^ (v + 1) * a ||| 1 <<< v = 2 ^ v * (2 * a + 1) := by
      rw [or_shift]
      ring
    rw [e2, e1, key false (2 * a) fun k hk => by rw [← e1]; exact testBit_low hk,
      key true (2 * a + 1) fun k hk => by
        rw [show 2 ^ v * (2 * a + 1) + k = 2 ^ (v + 1) * a + (2 ^ v + k) by ring]
        exact testBit_high hk]
    simp only [Option.bind_some]
    congr 2
    rw [show 2 ^ (v + 1) = 2 ^ v + 2 ^ v by ring, Finset.sum_range_add]
    congr 1
    apply Finset.sum_congr rfl
    intro k _
    rw [show 2 ^ v * (2 * a) + (2 ^ v + k) = 2 ^ v * (2 * a + 1) + k by ring]

theorem fidelityOutcomes_spec (P : ℕ → Option ℝ) (perm : List (ℕ × ℕ)) {n : ℕ} (hn : n ≠ 0) {e : VEdge} (h : VOk n e) (L : ℕ → ℕ)
    (hL : ∀ i, outcomeIndex perm n i = some (L i)) :
    fidelityOutcomes e P perm = some (∑ k ∈ Finset.range (2 ^ n), ‖e.vec (bitsOf k)‖ * rootOf P (L k)) := by
  rw [← rootProb_eq]
  unfold fidelityOutcomes
  split
  next h0 =>
    congr 1
    symm
    apply Finset.sum_eq_zero
    intro k _
    unfold Edge.vec
    rw [h0]
    simp
  next h0 =>
    have hc := h h0
    obtain ⟨p, w⟩ := e
    cases p with
    | term => exact absurd hc hn
    | node v ws c =>
      have hv : n = v + 1 := hc.1
      subst hv
      simp only
      have := fidRec_spec P perm (v + 1) L hL (.node v ws c) (v + 1) w 0 hc
      rw [mul_zero] at this
      rw [this, Finset.mul_sum]
      congr 1
      apply Finset.sum_congr rfl
      intro k _
      unfold Edge.vec
      rw [zero_add, norm_mul, mul_assoc]

end MQT.DD
