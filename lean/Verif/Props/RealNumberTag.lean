import Verif.Memory.RealNumberTag
import Mathlib.Algebra.Group.Basic

/-! C16: sign-tagged pointers. -/

namespace MQT.Tag

set_option autoImplicit false

/-- Specification: an address of an entry (entries are aligned to more than one byte). -/
def Aligned (p : Ptr) : Prop := p.toNat % 2 = 0

theorem aligned_iff (p : Ptr) : Aligned p ↔ p.getLsbD 0 = false := by
  unfold Aligned
  rw [BitVec.getLsbD, Nat.testBit_zero]
  simp

theorem lsb_bit (i : Nat) : LSB.getLsbD i = decide (i = 0) := by
  unfold LSB
  by_cases h : i = 0
  · subst h; decide
  · by_cases h2 : i < 64
    · rw [show (1 : Ptr) = BitVec.twoPow 64 0 from rfl, BitVec.getLsbD_twoPow]
      simp [h, eq_comm]
    · rw [BitVec.getLsbD_of_ge _ _ (by omega)]; simp [h]

theorem aligned_of_aligned {p : Ptr} (h : Aligned p) : getAlignedPointer p = p := by
  rw [aligned_iff] at h
  apply BitVec.eq_of_getLsbD_eq
  intro i hi
  simp only [getAlignedPointer, BitVec.getLsbD_and, BitVec.getLsbD_not, lsb_bit, hi]
  by_cases h0 : i = 0
  · subst h0; rw [h]; rfl
  · simp [h0]

theorem aligned_negative {p : Ptr} (h : Aligned p) : getAlignedPointer (getNegativePointer p) = p := by
  rw [aligned_iff] at h
  apply BitVec.eq_of_getLsbD_eq
  intro i hi
  simp only [getAlignedPointer, getNegativePointer, BitVec.getLsbD_and, BitVec.getLsbD_or,
    BitVec.getLsbD_not, lsb_bit, hi]
  by_cases h0 : i = 0
  · subst h0; rw [h]; rfl
  · simp [h0]

theorem isNeg_iff (p : Ptr) : isNegativePointer p = p.getLsbD 0 := by
  unfold isNegativePointer
  have : p &&& LSB = if p.getLsbD 0 then LSB else 0 := by
    apply BitVec.eq_of_getLsbD_eq
    intro i hi
    rw [BitVec.getLsbD_and, lsb_bit]
    by_cases h0 : i = 0
    · subst h0; cases h : p.getLsbD 0 <;> simp [lsb_bit]
    · cases h : p.getLsbD 0 <;> simp [lsb_bit, h0]
  rw [this]
  cases p.getLsbD 0 <;> simp [LSB]

theorem flip_aligned {zero p : Ptr} (h : Aligned p) (hz : p ≠ zero) :
    flipPointerSign zero p = getNegativePointer p := by
  rw [aligned_iff] at h
  unfold flipPointerSign getNegativePointer
  rw [if_neg hz]
  apply BitVec.eq_of_getLsbD_eq
  intro i hi
  simp only [BitVec.getLsbD_xor, BitVec.getLsbD_or, lsb_bit]
  by_cases h0 : i = 0
  · subst h0; rw [h]; rfl
  · simp [h0]

theorem neg_bit (p : Ptr) : (getNegativePointer p).getLsbD 0 = true := by
  simp [getNegativePointer, lsb_bit]

/-- **C16.** For every aligned pointer `p` and every memory: tagging does not change the aligned
pointer; the tag is visible exactly on the tagged pointer; the value of the tagged pointer is minus the
value of `p`, the reference count is the one of `p`; flipping the sign negates the value (of a zero
entry holding 0) and flipping twice is the identity, also on a tagged pointer to a non-zero entry. -/
theorem c16_tagged_pointers {F : Type} [SubtractionMonoid F] (mem : Ptr → F) (ref : Ptr → Nat)
    (zero : Ptr) (hzero : Aligned zero) (hmem : mem zero = 0) (p : Ptr) (h : Aligned p) :
    getAlignedPointer p = p ∧ getAlignedPointer (getNegativePointer p) = p ∧
    isNegativePointer p = false ∧ isNegativePointer (getNegativePointer p) = true ∧
    val mem p = mem p ∧ val mem (getNegativePointer p) = - val mem p ∧
    refCount ref (getNegativePointer p) = refCount ref p ∧
    val mem (flipPointerSign zero p) = - val mem p ∧
    flipPointerSign zero (flipPointerSign zero p) = p ∧
    (p ≠ zero → flipPointerSign zero (getNegativePointer p) = p ∧
      flipPointerSign zero (flipPointerSign zero (getNegativePointer p)) = getNegativePointer p) := by
  have hn : isNegativePointer p = false := by rw [isNeg_iff]; exact (aligned_iff p).mp h
  have hn' : isNegativePointer (getNegativePointer p) = true := by rw [isNeg_iff]; exact neg_bit p
  have hv : val mem p = mem p := by simp [val, hn]
  have hv' : val mem (getNegativePointer p) = - val mem p := by
    rw [hv]; simp [val, hn', aligned_negative h]
  have hne : getNegativePointer p ≠ zero := by
    intro e
    have := neg_bit p
    rw [e, (aligned_iff zero).mp hzero] at this; cases this
  have hback : getNegativePointer p ^^^ LSB = p := by
    have hb := (aligned_iff p).mp h
    apply BitVec.eq_of_getLsbD_eq
    intro i hi
    simp only [getNegativePointer, BitVec.getLsbD_xor, BitVec.getLsbD_or, lsb_bit]
    by_cases h0 : i = 0
    · subst h0; rw [hb]; rfl
    · simp [h0]
  have hfb : flipPointerSign zero (getNegativePointer p) = p := by
    unfold flipPointerSign; rw [if_neg hne]; exact hback
  refine ⟨aligned_of_aligned h, aligned_negative h, hn, hn', hv, hv', ?_, ?_, ?_, ?_⟩
  · simp [refCount, hn, hn', aligned_negative h]
  · by_cases hz : p = zero
    · subst hz; simp [flipPointerSign, hv, hmem]
    · rw [flip_aligned h hz, hv']
  · by_cases hz : p = zero
    · subst hz; simp [flipPointerSign]
    · rw [flip_aligned h hz, hfb]
  · intro hz
    exact ⟨hfb, by rw [hfb, flip_aligned h hz]⟩

/-- A concrete aligned pointer. -/
example : Aligned 0x7f00a0 ∧ getNegativePointer 0x7f00a0 = 0x7f00a1 ∧
    val (fun p => (p.toNat : Int)) 0x7f00a1 = -0x7f00a0 := ⟨by unfold Aligned; decide, by decide, by decide⟩

/-- Flipping a negatively tagged zero does not give it back (it becomes the plain zero). -/
theorem c16_negative_zero : flipPointerSign 16 (flipPointerSign 16 (getNegativePointer 16)) ≠
    getNegativePointer 16 := by decide

end MQT.Tag
