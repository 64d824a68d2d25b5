import Verif.IR.Layout

/-! C32: the layouts of a circuit. -/

set_option autoImplicit false
set_option linter.unusedSectionVars false

namespace MQT.IR.Layout

/-- **C32.** After any history of adding registers, ancillary registers, ancillary qubits and
qubits (new logical qubits at the end) and removing the last logical qubit, no two physical qubits share a
logical qubit, neither in the initial layout nor in the output permutation, and every logical index is
smaller than the number of qubits. -/
theorem c32_layout_injective_partial (hist : List LOp) (s : LS) (ha : AdmissibleAll empty hist)
    (he : exec empty hist = some s) :
    Inj s.init ∧ Inj s.out ∧ Bounded s.init s.n ∧ Bounded s.out s.n :=
  let h := exec_inv hist empty_inv ha he
  ⟨h.init, h.out, h.initB, h.outB⟩

/-- A history with physical indices out of order that satisfies the hypotheses. -/
example : (exec empty [.addReg 2, .addQubit 2 7 (some 2), .addAnc 5 none, .addAncReg 1, .remove 4 4 true]).isSome = true ∧
    AdmissibleAll empty [.addReg 2, .addQubit 2 7 (some 2)] := by
  refine ⟨by decide, trivial, ?_⟩
  intro s' hs
  injection hs with hs
  subst hs
  refine ⟨⟨rfl, ?_⟩, fun _ _ => trivial⟩
  rintro v h
  injection h with h
  subst h
  refine ⟨le_rfl, fun p hp => ?_⟩
  have := (emplaceRange_ok (m := fun _ => none) (a := 0) (fun _ _ _ h => by cases h)
    (fun _ _ h => by cases h) 2).2 p 2 hp
  omega

/-- The property fails when a qubit is inserted below existing logical qubits (which the code
permits): the others are not shifted. -/
theorem c32_fails_on_insert : ∃ s, exec empty [.addReg 2, .addQubit 0 5 none] = some s ∧
    s.init 0 = some 0 ∧ s.init 5 = some 0 := ⟨_, rfl, rfl, rfl⟩

/-- The property fails after removing a qubit that is not the last one. -/
theorem c32_fails_after_remove : ∃ s, exec empty [.addReg 3, .remove 0 0 false, .addAnc 0 none] = some s ∧
    s.init 0 = some 2 ∧ s.init 2 = some 2 := ⟨_, rfl, rfl, rfl⟩

/-- And when a qubit is added although there are ancillary qubits. -/
theorem c32_fails_with_ancillae : ∃ s, exec empty [.addReg 1, .addAncReg 1, .addQubit 1 9 none] = some s ∧
    s.init 1 = some 1 ∧ s.init 9 = some 1 := ⟨_, rfl, rfl, rfl⟩

end MQT.IR.Layout
