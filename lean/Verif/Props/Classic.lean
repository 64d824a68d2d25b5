import Verif.IR.ClassicControlled

/-! C30, C48: classically controlled operations. -/

set_option autoImplicit false
set_option linter.unusedSectionVars false

namespace MQT.IR

/-! ### C48 -/

/-- Specification: the relation a comparison kind stands for. -/
def Cmp.rel : Cmp → ℕ → ℕ → Prop
  | .eq => (· = ·)
  | .neq => (· ≠ ·)
  | .lt => (· < ·)
  | .leq => (· ≤ ·)
  | .gt => fun a b => b < a
  | .geq => fun a b => b ≤ a

/-- **C48.** An operation controlled by a register of up to 64 bits is executed exactly when the
little-endian value of the register stands in the stated relation to the expected value.
Missing from C48: registers of more than 64 bits, where a shift is undefined (`c48_wide_register_undefined`). -/
theorem c48_register_partial (start size expected : ℕ) (kind : Cmp) (m : ℕ → Bool) (h : size ≤ 64) :
    ∃ b, (CC.mkReg start size expected kind).fires m = some b ∧
      (b = true ↔ kind.rel (leValue m start size) expected) := by
  refine ⟨kind.holds (leValue m start size) expected, ?_, ?_⟩
  · simp only [CC.fires, CC.mkReg]
    rw [regValue_eq m start size h]
    rfl
  · cases kind <;> simp [Cmp.holds, Cmp.rel]

/-- **C48.** An operation controlled by a bit: accepted exactly for expected values 0, 1 and the kinds
`==`, `!=`, and executed exactly when the bit stands in the stated relation to the expected
value. -/
theorem c48_bit (b expected : ℕ) (kind : Cmp) :
    (CC.mkBit b expected kind = none ↔ expected > 1 ∨ (kind ≠ .eq ∧ kind ≠ .neq)) ∧
    ∀ c, CC.mkBit b expected kind = some c → ∀ m, ∃ r, c.fires m = some r ∧
      (r = true ↔ kind.rel (if m b then 1 else 0) expected) := by
  constructor
  · unfold CC.mkBit
    by_cases he : expected > 1
    · simp [he]
    · cases kind <;> simp [he]
  · intro c hc m
    unfold CC.mkBit at hc
    by_cases he : expected > 1
    · rw [if_pos he] at hc; cases hc
    · rw [if_neg he] at hc
      have : expected = 0 ∨ expected = 1 := by omega
      cases kind <;> simp at hc <;> subst hc <;> rcases this with rfl | rfl <;>
        cases hm : m b <;> simp [CC.fires, hm, Cmp.holds, Cmp.rel]

/-- **C48.** The inverted kind (used for `else` branches) holds exactly when the kind does not. -/
theorem c48_inverted (kind : Cmp) (a e : ℕ) : kind.inverted.rel a e ↔ ¬kind.rel a e := by
  cases kind <;> simp [Cmp.inverted, Cmp.rel]

/-- A register wider than 64 bits is undefined behaviour as soon as a high bit is set. -/
theorem c48_wide_register_undefined (start expected : ℕ) (kind : Cmp) :
    (CC.mkReg start 65 expected kind).fires (fun b => b = start + 64) = none := by
  have h : CC.regValue (fun b => decide (b = start + 64)) start 64 = some 0 := by
    rw [regValue_eq _ _ _ le_rfl, leValue, Finset.sum_eq_zero]
    intro j hj
    rw [Finset.mem_range] at hj
    rw [if_neg]
    simp; omega
  have e : CC.regValue (fun b => decide (b = start + 64)) start 65 = none := by
    rw [CC.regValue, h]
    simp
  simp only [CC.fires, CC.mkReg]
  rw [e]; rfl

example : (CC.mkReg 2 3 5 .geq).fires (fun b => b = 3 ∨ b = 4) = some true ∧
    (CC.mkReg 2 3 5 .geq).fires (fun b => b = 3) = some false ∧
    leValue (fun b => b = 3 ∨ b = 4) 2 3 = 6 ∧
    CC.mkBit 4 1 .neq = some { bit := some 4, expected := 0 } := by decide

/-! ### C30 -/

/-- **C30.** A copy of an operation whose kind is `==` has the same condition.  This covers every
operation that is controlled by a single bit. -/
theorem c30_copy_partial (c : CC) (h : c.kind = .eq) : c.copy = c := by
  cases c; simp only at h; subst h; rfl

theorem c30_copy_bit (b expected : ℕ) (kind : Cmp) (c : CC) (h : CC.mkBit b expected kind = some c) :
    c.copy = c := by
  apply c30_copy_partial
  unfold CC.mkBit at h
  by_cases he : expected > 1
  · rw [if_pos he] at h; cases h
  · rw [if_neg he] at h
    cases kind <;> simp at h <;> subst h <;> rfl

/-- The property fails for every other kind: the copy compares with `==`, and there are an expected
value and a classical memory for which exactly one of the two is executed. -/
theorem c30_copy_loses_kind (kind : Cmp) (h : kind ≠ .eq) (start : ℕ) :
    ∃ (expected : ℕ) (m : ℕ → Bool), (CC.mkReg start 2 expected kind).copy.fires m ≠
      (CC.mkReg start 2 expected kind).fires m := by
  have key : ∀ (e : ℕ) (k : Cmp) (m : ℕ → Bool), (CC.mkReg start 2 e k).fires m =
      some (k.holds (leValue m start 2) e) := by
    intro e k m
    simp only [CC.fires, CC.mkReg]
    rw [regValue_eq m start 2 (by decide)]
    rfl
  have hv : leValue (fun _ => false) start 2 = 0 := by simp [leValue]
  have hv' : leValue (fun _ => true) start 2 = 3 := by simp [leValue, Finset.sum_range_succ]
  have hc : ∀ e k, (CC.mkReg start 2 e k).copy = CC.mkReg start 2 e .eq := fun _ _ => rfl
  cases kind with
  | eq => exact absurd rfl h
  | neq => exact ⟨0, fun _ => false, by rw [hc, key, key, hv]; decide⟩
  | lt => exact ⟨1, fun _ => false, by rw [hc, key, key, hv]; decide⟩
  | leq => exact ⟨1, fun _ => false, by rw [hc, key, key, hv]; decide⟩
  | gt => exact ⟨1, fun _ => true, by rw [hc, key, key, hv']; decide⟩
  | geq => exact ⟨1, fun _ => true, by rw [hc, key, key, hv']; decide⟩

/-- Copy assignment even combines the two conditions. -/
theorem c30_assign_mixes : CC.assign (CC.mkReg 0 2 1 .lt) (CC.mkReg 5 3 2 .geq) = CC.mkReg 5 3 2 .lt := rfl

example : (CC.mkReg 0 2 1 .lt).copy = CC.mkReg 0 2 1 .eq := rfl

end MQT.IR
