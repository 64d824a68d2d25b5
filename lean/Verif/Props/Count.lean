/-
Property C125: operations are counted, the last operations found and circuits made of compound operations.
-/
import Verif.IR.Count

set_option autoImplicit false

namespace MQT.IR.Count

/-- **C125.** `getNindividualOps` is the number of operations with the compound operations taken apart.

Missing from C125: compound operations within compound operations, for which it fails, see below. -/
theorem c125_individual_partial : ∀ {os : List Op}, (∀ o ∈ os, notNested o) → individual os = (allFlat os).length
  | [], _ => rfl
  | o :: os, h => by
    have ih := c125_individual_partial fun o ho => h o (List.mem_cons_of_mem _ ho)
    have h0 := h o List.mem_cons_self
    rw [allFlat, List.length_append, ← ih]
    cases o with
    | compound cs l =>
      rw [individual, flat, allFlat_notCompound h0]
    | _ => rfl

/-- **C125 fails.** A compound operation in a compound operation counts as one operation. -/
theorem c125_individual_nested (o : Op) (h : o.isCompound = false) :
    individual [.compound [] [.compound [] [o, o]]] = 1 ∧ (allFlat [.compound [] [.compound [] [o, o]]]).length = 2 := by
  simp [individual, allFlat, flat, flat_notCompound h]

theorem single_eq (o : Op) : o.single = (isSingle o || isBarrier1 o) ∧ (isSingle o && isBarrier1 o) = false := by
  cases o with
  | gate b ts cs => cases b <;> simp [Op.single, Op.isUnitary, Op.targets, Op.controls, isSingle, isBarrier1] <;> rfl
  | _ => simp [Op.single, Op.isUnitary, Op.targets, isSingle, isBarrier1]

theorem countP_single : ∀ l : List Op, l.countP Op.single = l.countP isSingle + l.countP isBarrier1
  | [] => rfl
  | o :: l => by
    obtain ⟨h1, h2⟩ := single_eq o
    rw [List.countP_cons, List.countP_cons, List.countP_cons, countP_single l, h1]
    cases h3 : isSingle o <;> cases h4 : isBarrier1 o <;> simp_all <;> omega

/-- **C125.** `getNsingleQubitOps` counts the gates with one target and no controls, and the barriers on one qubit.

Missing from C125: compound operations within compound operations, for which it fails, see below. -/
theorem c125_single_partial : ∀ {os : List Op}, (∀ o ∈ os, notNested o) →
    singleOps os = (allFlat os).countP isSingle + (allFlat os).countP isBarrier1
  | [], _ => rfl
  | o :: os, h => by
    have ih := c125_single_partial fun o ho => h o (List.mem_cons_of_mem _ ho)
    have h0 := h o List.mem_cons_self
    rw [← countP_single] at ih ⊢
    rw [allFlat, List.countP_append, ← ih]
    cases o with
    | compound cs l =>
      rw [singleOps, flat, allFlat_notCompound h0]
    | _ => simp [singleOps, flat, List.countP_cons]

/-- **C125 fails.** A barrier on one qubit counts as an operation on one qubit. -/
theorem c125_single_barrier (q : ℕ) : singleOps [.gate true [q] []] = 1 ∧ (allFlat [.gate true [q] []]).countP isSingle = 0 := by
  simp [singleOps, Op.single, Op.isUnitary, Op.controls, Op.targets, allFlat, flat, isSingle]

/-- **C125 fails.** Operations on one qubit in a compound operation in a compound operation do not count. -/
theorem c125_single_nested (q : ℕ) : singleOps [.compound [] [.compound [] [.gate false [q] []]]] = 0 ∧
    (allFlat [.compound [] [.compound [] [.gate false [q] []]]]).countP isSingle = 1 := by
  simp [singleOps, Op.single, Op.targets, allFlat, flat, isSingle]

/-- **C125.** `isLastOperationOnQubit` returns whether no later operation is on a qubit of the operation.

Missing from C125: operations on qubits with numbers not below the number of qubits, for which it fails, see below. -/
theorem c125_last_partial {n : ℕ} {o : Op} {l : List Op} (h : ∀ q ∈ qubits o, q < n) :
    isLast n (o :: l) = true ↔ ∀ o' ∈ l, ∀ q ∈ qubits o, q ∉ qubits o' := by
  simp only [isLast, List.all_eq_true, List.mem_range, Bool.not_eq_true', Bool.and_eq_false_iff]
  constructor
  · intro h1 o' ho' q hq hq'
    rcases h1 o' ho' q (h q hq) with h2 | h2
    · rw [(actsOn_iff q o).2 hq] at h2
      exact absurd h2 (by simp)
    · rw [(actsOn_iff q o').2 hq'] at h2
      exact absurd h2 (by simp)
  · intro h1 o' ho' q _
    by_cases hq : q ∈ qubits o
    · refine Or.inr ?_
      have := fun h2 => h1 o' ho' q hq ((actsOn_iff q o').1 h2)
      simpa using this
    · refine Or.inl ?_
      have := fun h2 => hq ((actsOn_iff q o).1 h2)
      simpa using this

/-- **C125.** At the end of the circuit, it returns true. -/
theorem c125_last_end (n : ℕ) (o : Op) : isLast n [] = true ∧ isLast n [o] = true := by
  simp [isLast]

/-- **C125 fails.** If qubit 0 was removed of two, the first of two gates on the other, qubit 1, is said to be the last. -/
theorem c125_last_removed : isLast 1 [.gate false [1] [], .gate false [1] []] = true ∧
    ¬ ∀ o' ∈ [Op.gate false [1] []], ∀ q ∈ qubits (.gate false [1] []), q ∉ qubits o' := by
  simp [isLast, actsOn, qubits]

/-- **C125.** The circuit of a compound operation has all qubits of the operations, and no more than needed: one or up to the last used.

Missing from C125: classically controlled compound operations, for which it fails, see below. -/
theorem c125_from_qubits_partial {os : List Op} (h : allPlain os = true) :
    (∀ q ∈ allQubits os, q < (fromCompound os).1) ∧ ((fromCompound os).1 = 1 ∨ ∃ q ∈ allQubits os, (fromCompound os).1 = q + 1) := by
  have e : (fromCompound os).1 = (allQubits os).foldl max 0 + 1 := by
    unfold fromCompound
    simp only [foldl_pair, allUsed_eq os h]
  rw [e]
  refine ⟨fun q hq => Nat.lt_succ_of_le ((le_foldl_max _ 0).2 q hq), ?_⟩
  rcases foldl_max_mem (allQubits os) 0 with h1 | h1
  · exact Or.inl (by rw [h1])
  · exact Or.inr ⟨_, h1, rfl⟩

theorem flatMap_classics : ∀ {os : List Op}, (∀ o ∈ os, bits o = classics o) → os.flatMap classics = allBits os
  | [], _ => rfl
  | o :: os, h => by
    rw [List.flatMap_cons, allBits, h o List.mem_cons_self, flatMap_classics fun o ho => h o (List.mem_cons_of_mem _ ho)]

/-- **C125.** The circuit of a compound operation has all bits of the operations, and no more than needed: one or up to the last used.

Missing from C125: measurements within compound operations and classically controlled operations, for which it fails, see below. -/
theorem c125_from_bits_partial {os : List Op} (h : ∀ o ∈ os, (∃ ts bs, o = .measure ts bs) ∨ bits o = []) :
    (∀ b ∈ allBits os, b < (fromCompound os).2) ∧ ((fromCompound os).2 = 1 ∨ ∃ b ∈ allBits os, (fromCompound os).2 = b + 1) := by
  have hb : ∀ o ∈ os, bits o = classics o := by
    intro o ho
    rcases h o ho with ⟨ts, bs, rfl⟩ | h1
    · rfl
    · cases o with
      | measure ts bs => rfl
      | _ => exact h1
  have e : (fromCompound os).2 = (allBits os).foldl max 0 + 1 := by
    unfold fromCompound
    simp only [foldl_pair, flatMap_classics hb]
  rw [e]
  refine ⟨fun q hq => Nat.lt_succ_of_le ((le_foldl_max _ 0).2 q hq), ?_⟩
  rcases foldl_max_mem (allBits os) 0 with h1 | h1
  · exact Or.inl (by rw [h1])
  · exact Or.inr ⟨_, h1, rfl⟩

/-- **C125 fails.** The circuit of a compound operation with a measurement in a compound operation has only one bit. -/
theorem c125_from_nested (b : ℕ) : fromCompound [.compound [] [.measure [0] [b]]] = (1, 1) ∧
    allBits [.compound [] [.measure [0] [b]]] = [b] := by
  simp [fromCompound, used, allUsed, classics, allBits, bits]

/-- **C125 fails.** The circuit of a compound operation with a classically controlled operation has not the bits that control it, and not
the qubits if the controlled operation is a compound operation. -/
theorem c125_from_classic (q b : ℕ) : fromCompound [.classic (.compound [] [.gate false [q] []]) [b]] = (1, 1) ∧
    allQubits [.classic (.compound [] [.gate false [q] []]) [b]] = [q] ∧
    allBits [.classic (.compound [] [.gate false [q] []]) [b]] = [b] := by
  simp [fromCompound, used, classics, allQubits, qubits, allBits, bits, Op.targets, Op.controls]

/-- A gate on a qubit, a controlled gate and a measurement. -/
example : let os : List Op := [.compound [] [.gate false [3] [], .gate false [1] [0]], .measure [1] [4]]
    individual os = 3 ∧ singleOps os = 1 ∧ isLast 4 os = false ∧ fromCompound os = (4, 5) := by
  decide

end MQT.IR.Count
