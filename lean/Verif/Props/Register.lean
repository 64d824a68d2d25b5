/-
Property C127: indices, equality and hash of registers.
-/
import Verif.IR.Register

set_option autoImplicit false

namespace MQT.IR.Register

/-- **C127.** `contains` returns whether the index is one of the register. -/
theorem c127_contains {w : ℕ} {r : Reg} (g : Good w r) (i : ℕ) : contains r i = true ↔ Has r i := contains_iff g i

/-- **C127.** `getLocalIndex` returns exactly for the indices of the register: the place in it. -/
theorem c127_local {w : ℕ} {r : Reg} (g : Good w r) (i j : ℕ) : localIndex r i = some j ↔ j < r.size ∧ i = r.start + j := by
  unfold localIndex
  by_cases h : contains r i = true
  · rw [if_pos h, Option.some.injEq]
    obtain ⟨j', h1, rfl⟩ := (contains_iff g i).1 h
    omega
  · rw [if_neg h]
    constructor
    · intro h1
      exact absurd h1 (by simp)
    · rintro ⟨h1, h2⟩
      exact absurd ((contains_iff g i).2 ⟨j, h1, h2⟩) h

/-- **C127.** `getGlobalIndex` returns exactly for the places in the register: the index. -/
theorem c127_global {w : ℕ} {r : Reg} (g : Good w r) (i j : ℕ) : globalIndex w r j = some i ↔ j < r.size ∧ i = r.start + j := by
  unfold globalIndex
  have := g.fits
  by_cases h : r.size ≤ j
  · rw [if_pos h]
    constructor
    · intro h1
      exact absurd h1 (by simp)
    · rintro ⟨h1, -⟩
      omega
  · rw [if_neg h, Nat.mod_eq_of_lt (by omega), Option.some.injEq]
    omega

/-- **C127.** The two are inverse to each other. -/
theorem c127_inverse {w : ℕ} {r : Reg} (g : Good w r) (i j : ℕ) : localIndex r i = some j ↔ globalIndex w r j = some i := by
  rw [c127_local g, c127_global g]

/-- **C127.** The end index is the last index of a register that is not empty.

Missing from C127: empty registers, see `c127_end_empty`. -/
theorem c127_end_partial {w : ℕ} {r : Reg} (g : Good w r) (h : r.size ≠ 0) :
    Has r (endIndex w r) ∧ ∀ i, Has r i → i ≤ endIndex w r := by
  have h1 := g.fits
  have h2 := g.lt64
  have e : endIndex w r = r.start + (r.size - 1) := by
    unfold endIndex
    have e1 : r.start + r.size + (2 ^ 64 - 1) = (r.start + (r.size - 1)) + 2 ^ 64 := by omega
    rw [e1, Nat.add_mod_right, Nat.mod_eq_of_lt (by omega), Nat.mod_eq_of_lt (by omega)]
  rw [e]
  refine ⟨⟨r.size - 1, by omega, rfl⟩, ?_⟩
  rintro i ⟨j, hj, rfl⟩
  omega

/-- **C127 fails.** The end index of an empty register at the beginning is the largest number. -/
theorem c127_end_empty (nm : String) : endIndex 32 ⟨0, 0, nm⟩ = 2 ^ 32 - 1 ∧ endIndex 64 ⟨0, 0, nm⟩ = 2 ^ 64 - 1 := by
  constructor <;> norm_num [endIndex]

/-- **C127.** Registers are equal exactly if they have the same name and size.

Missing from C127: that they have the same indices, which fails, see `c127_equal_other_qubits`. -/
theorem c127_equal_partial (r s : Reg) : eq r s = true ↔ r.name = s.name ∧ r.size = s.size := by
  simp [eq]

/-- **C127 fails.** Registers on different qubits are equal, and have different hashes. -/
theorem c127_equal_other_qubits (nm : String) : eq ⟨0, 1, nm⟩ ⟨1, 1, nm⟩ = true ∧ hash ⟨0, 1, nm⟩ ≠ hash ⟨1, 1, nm⟩ ∧
    Has ⟨0, 1, nm⟩ 0 ∧ ¬ Has ⟨1, 1, nm⟩ 0 := by
  refine ⟨by simp [eq], by show combineHash 0 1 ≠ combineHash 1 1; decide, ⟨0, by simp, rfl⟩, ?_⟩
  rintro ⟨j, -, h⟩
  simp at h
  omega

/-- **C127 fails.** Circuits are equal if a gate is on qubit 0 of both and this is `a[0]` in one and `b[0]` in the other: the registers
compare equal. -/
theorem c127_exchanged : eqRegs [⟨0, 1, "a"⟩, ⟨1, 1, "b"⟩] [⟨1, 1, "a"⟩, ⟨0, 1, "b"⟩] = true := by
  decide

/-- **C127.** The comparison of the registers of two circuits notices other names and sizes. -/
theorem c127_registers {l l' : List Reg} (h : eqRegs l l' = true) : l.length = l'.length ∧
    ∀ r ∈ l, ∃ s ∈ l', r.name = s.name ∧ r.size = s.size := by
  simp only [eqRegs, eq, Bool.and_eq_true, decide_eq_true_eq, List.all_eq_true, List.any_eq_true] at h
  exact ⟨h.1, fun r hr => by
    obtain ⟨s, hs, h1, -, h2⟩ := h.2 r hr
    exact ⟨s, hs, h1, h2⟩⟩

/-- The third qubit of a register that starts at qubit 4. -/
example : Good 32 ⟨4, 5, "q"⟩ ∧ globalIndex 32 ⟨4, 5, "q"⟩ 2 = some 6 ∧ localIndex ⟨4, 5, "q"⟩ 6 = some 2 ∧ localIndex ⟨4, 5, "q"⟩ 9 = none ∧
    endIndex 32 ⟨4, 5, "q"⟩ = 8 :=
  ⟨⟨by norm_num, by norm_num⟩, by rfl, by rfl, by rfl, by rfl⟩

end MQT.IR.Register
