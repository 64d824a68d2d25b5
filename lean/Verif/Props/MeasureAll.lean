/-
Property C123: all outputs of a circuit are measured.
-/
import Verif.IR.MeasureAll

set_option autoImplicit false

namespace MQT.IR.MeasureAll

theorem addReg_ok {c : QC} {k : ℕ} {nm : String} (h : c.hasReg nm = false) (hk : k ≠ 0) :
    addReg c k nm = ({ c with regs := c.regs ++ [(nm, c.nc, k)], nc := c.nc + k }, true) := by
  unfold addReg
  rw [if_neg (by simp [h]), if_neg hk]

/-- **C123.** The qubits that there are: physical qubits of the layout with logical qubits below the number of qubits. -/
theorem c123_qubits (c : QC) (q : ℕ) : c.qubitOk q = true ↔ ∃ l, c.layout q = some l ∧ l < c.n := by
  unfold QC.qubitOk
  cases c.layout q <;> simp

/-- The first part of `appendMeasurementsAccordingToOutputPermutation`. -/
theorem append_cases {c : QC} (g : Good c) (nm : String) :
    ((c.regs = [] ∧ c.out = [] ∨ c.regs ≠ [] ∧ c.nc < c.out.length ∧ c.hasReg nm = true) ∧ append c nm = (c, false)) ∨
    (¬ (c.regs = [] ∧ c.out = []) ∧ ¬ (c.regs ≠ [] ∧ c.nc < c.out.length ∧ c.hasReg nm = true) ∧
      ∃ rs, append c nm = measures { c with ops := c.ops ++ [.barrier (List.range c.n)], nc := max c.nc c.out.length, regs := rs } c.out) := by
  unfold append
  by_cases h0 : c.regs = []
  · have hr : c.hasReg nm = false := by simp [QC.hasReg, h0]
    have hn : c.nc = 0 := g h0
    simp only [if_pos h0]
    by_cases h1 : c.out = []
    · refine Or.inl ⟨Or.inl ⟨h0, h1⟩, ?_⟩
      unfold addReg
      rw [if_neg (by simp [hr]), if_pos (by simp [h1])]
      simp [next]
    · refine Or.inr ⟨fun h => h1 h.2, fun h => h.1 h0, c.regs ++ [(nm, c.nc, c.out.length)], ?_⟩
      rw [addReg_ok hr (by simpa using h1)]
      simp only [next, if_true, barrier, hn, Nat.zero_add, Nat.zero_max]
  · simp only [if_neg h0]
    by_cases h1 : c.nc < c.out.length
    · rw [if_pos h1]
      cases h2 : c.hasReg nm with
      | true => exact Or.inl ⟨Or.inr ⟨h0, h1, rfl⟩, by simp [next]⟩
      | false =>
        refine Or.inr ⟨fun h => h0 h.1, by simp, c.regs ++ [(nm, c.nc, c.out.length - c.nc)], ?_⟩
        rw [if_neg (by simp), addReg_ok h2 (by omega)]
        have e1 : c.nc + (c.out.length - c.nc) = max c.nc c.out.length := by omega
        simp only [next, if_true, barrier, e1]
    · rw [if_neg h1]
      refine Or.inr ⟨fun h => h0 h.1, fun h => h1 h.2.1, c.regs, ?_⟩
      have e1 : max c.nc c.out.length = c.nc := by omega
      simp only [next, if_true, barrier, e1]

/-- **C123.** When `appendMeasurementsAccordingToOutputPermutation` returns: there are outputs or classical registers, a new register,
if there is to be one, has a new name, the measured qubits exist, and the numbers of the outputs are below the number of classical bits or
the number of outputs. -/
theorem c123_append_returns {c : QC} (g : Good c) (nm : String) : (append c nm).2 = true ↔
    (c.regs = [] → c.out ≠ []) ∧ (c.regs ≠ [] → c.nc < c.out.length → c.hasReg nm = false) ∧
      ∀ x ∈ c.out, c.qubitOk x.1 = true ∧ x.2 < max c.nc c.out.length := by
  rcases append_cases g nm with ⟨h, e⟩ | ⟨h1, h2, rs, e⟩
  · rw [e]
    refine ⟨fun h => absurd h (by simp), fun ⟨h1, h2, _⟩ => ?_⟩
    rcases h with ⟨h3, h4⟩ | ⟨h3, h4, h5⟩
    · exact absurd h4 (h1 h3)
    · rw [h2 h3 h4] at h5
      exact absurd h5 (by simp)
  · rw [e, measures_iff]
    constructor
    · refine fun h => ⟨fun h3 h4 => h1 ⟨h3, h4⟩, fun h3 h4 => ?_, h⟩
      by_contra h5
      exact h2 ⟨h3, h4, by simpa using h5⟩
    · exact fun h => h.2.2

/-- **C123.** If it returns, a barrier on all qubits and a measurement of every output into its bit were appended, and there are enough
classical bits; nothing else changed but the registers. -/
theorem c123_append_ops {c : QC} (g : Good c) {nm : String} (h : (append c nm).2 = true) :
    (append c nm).1.ops = c.ops ++ .barrier (List.range c.n) :: c.out.map (fun x => .measure x.1 x.2) ∧
    (append c nm).1.nc = max c.nc c.out.length ∧ (append c nm).1.n = c.n ∧ (append c nm).1.layout = c.layout ∧
    (append c nm).1.out = c.out := by
  rcases append_cases g nm with ⟨-, e⟩ | ⟨-, -, rs, e⟩
  · rw [e] at h
    exact absurd h (by simp)
  · rw [e] at h ⊢
    rw [measures_ok h]
    simp

/-- **C123.** If it throws, the circuit is unchanged or the barrier and the measurements before the one that threw were appended. -/
theorem c123_append_throws {c : QC} (g : Good c) {nm : String} (h : (append c nm).2 = false) :
    (append c nm).1 = c ∨ ∃ l1 x l2, c.out = l1 ++ x :: l2 ∧ ¬ (c.qubitOk x.1 = true ∧ x.2 < max c.nc c.out.length) ∧
      (append c nm).1.ops = c.ops ++ .barrier (List.range c.n) :: l1.map (fun x => .measure x.1 x.2) ∧
      (append c nm).1.nc = max c.nc c.out.length := by
  rcases append_cases g nm with ⟨-, e⟩ | ⟨-, -, rs, e⟩
  · exact Or.inl (by rw [e])
  · rw [e] at h ⊢
    rcases measures_spec c.out { c with
      ops := c.ops ++ [.barrier (List.range c.n)], nc := max c.nc c.out.length, regs := rs } with ⟨-, h2⟩ | ⟨l1, x, l2, h1, -, h3, h4⟩
    · rw [h2] at h
      exact absurd h (by simp)
    · rw [h4]
      exact Or.inr ⟨l1, x, l2, h1, h3, by simp, rfl⟩

/-- **C123.** It returns for a circuit whose outputs are numbered without gaps, if the name is new.

Missing from C123: circuits with garbage qubits, whose outputs are numbered with gaps; for them it fails, see below. -/
theorem c123_append_partial {c : QC} (g : Good c) {nm : String} (hn : c.hasReg nm = false) (h0 : c.out ≠ [])
    (hq : ∀ x ∈ c.out, c.qubitOk x.1 = true) (hb : ∀ x ∈ c.out, x.2 < c.out.length) : (append c nm).2 = true :=
  (c123_append_returns g nm).2 ⟨fun _ => h0, fun _ _ => hn, fun x hx => ⟨hq x hx, lt_of_lt_of_le (hb x hx) (le_max_right _ _)⟩⟩

/-- **C123 fails.** If the second of three qubits is garbage, an exception is thrown after the barrier and the first measurement were
appended: the register has two bits, but the third qubit is to be measured into the third bit. -/
theorem c123_gap (layout : ℕ → Option ℕ) (h : ∀ q < 3, layout q = some q) :
    let r := append ⟨3, layout, [(0, 0), (2, 2)], 0, [], []⟩ "c"
    r.2 = false ∧ r.1.ops = [.barrier [0, 1, 2], .measure 0 0] ∧ r.1.nc = 2 := by
  have h0 := h 0 (by norm_num)
  have h2 := h 2 (by norm_num)
  simp [append, addReg, QC.hasReg, next, barrier, measures, measure, QC.qubitOk, h0, h2, List.range_succ]

theorem meas_mem {n s : ℕ} {x : ℕ × ℕ} : x ∈ (List.range n).reverse.map (fun q => (q, s + q)) ↔ x.1 < n ∧ x.2 = s + x.1 := by
  simp only [List.mem_map, List.mem_reverse, List.mem_range]
  constructor
  · rintro ⟨q, hq, rfl⟩
    exact ⟨hq, rfl⟩
  · rintro ⟨h1, h2⟩
    exact ⟨x.1, h1, by rw [← h2]⟩

/-- **C123.** `measureAll` with new bits returns if there are qubits, the qubits `0` to `n - 1` exist and there is no register `meas`;
then a barrier on all qubits was appended and measurements of all qubits, the last first, into the bits of the new register in order. -/
theorem c123_measureAll_new (c : QC) : ((measureAll c true).2 = true ↔ c.hasReg "meas" = false ∧ c.n ≠ 0 ∧ ∀ q < c.n, c.qubitOk q = true) ∧
    ((measureAll c true).2 = true → (measureAll c true).1 = { c with
      nc := c.nc + c.n
      regs := c.regs ++ [("meas", c.nc, c.n)]
      ops := c.ops ++ .barrier (List.range c.n) :: (List.range c.n).reverse.map (fun q => .measure q (c.nc + q)) }) := by
  by_cases h : c.hasReg "meas" = false ∧ c.n ≠ 0
  · have hs : ∀ (ops : List Op), QC.start { c with nc := c.nc + c.n, regs := c.regs ++ [("meas", c.nc, c.n)], ops := ops } "meas" = c.nc := by
      intro ops
      have : c.regs.find? (fun r => r.1 = "meas") = none := by
        rw [List.find?_eq_none]
        simpa [QC.hasReg] using h.1
      simp [QC.start, List.find?_append, this]
    have e : measureAll c true = measures { c with
        nc := c.nc + c.n
        regs := c.regs ++ [("meas", c.nc, c.n)]
        ops := c.ops ++ [.barrier (List.range c.n)] } ((List.range c.n).reverse.map fun q => (q, c.nc + q)) := by
      unfold measureAll
      rw [if_pos rfl, addReg_ok h.1 h.2]
      simp only [next, if_true, barrier]
      rw [if_neg (by omega), hs]
    rw [e]
    constructor
    · rw [measures_iff]
      constructor
      · exact fun h' => ⟨h.1, h.2, fun q hq => (h' (q, c.nc + q) (meas_mem.2 ⟨hq, rfl⟩)).1⟩
      · intro h' x hx
        obtain ⟨h1, h2⟩ := meas_mem.1 hx
        exact ⟨h'.2.2 x.1 h1, by rw [h2]; simp only; omega⟩
    · intro h'
      rw [measures_ok h']
      simp [List.map_map, Function.comp_def]
  · have e : (measureAll c true).2 = false := by
      have : addReg c c.n "meas" = (c, false) := by
        unfold addReg
        by_cases h1 : c.hasReg "meas" = true
        · rw [if_pos h1]
        · rw [if_neg h1, if_pos (by by_contra h2; exact h ⟨by simpa using h1, h2⟩)]
      unfold measureAll
      rw [if_pos rfl, this]
      simp [next]
    rw [e]
    exact ⟨⟨fun h' => absurd h' (by simp), fun h' => absurd ⟨h'.1, h'.2.1⟩ h⟩, fun h' => absurd h' (by simp)⟩

/-- **C123.** `measureAll` with the bits there are returns if there are as many bits as qubits and the qubits `0` to `n - 1` exist; then a
barrier on all qubits was appended and measurements of all qubits, the last first, into the bits of the same numbers. -/
theorem c123_measureAll_old (c : QC) : ((measureAll c false).2 = true ↔ c.n ≤ c.nc ∧ ∀ q < c.n, c.qubitOk q = true) ∧
    ((measureAll c false).2 = true → (measureAll c false).1 = { c with
      ops := c.ops ++ .barrier (List.range c.n) :: (List.range c.n).reverse.map (fun q => .measure q q) }) := by
  by_cases h : c.n ≤ c.nc
  · have e : measureAll c false = measures { c with ops := c.ops ++ [.barrier (List.range c.n)] }
        ((List.range c.n).reverse.map fun q => (q, 0 + q)) := by
      unfold measureAll
      simp only [next, Bool.false_eq_true, if_false, if_true, barrier]
      rw [if_neg (by omega)]
    rw [e]
    constructor
    · rw [measures_iff]
      constructor
      · exact fun h' => ⟨h, fun q hq => (h' (q, 0 + q) (meas_mem.2 ⟨hq, rfl⟩)).1⟩
      · intro h' x hx
        obtain ⟨h1, h2⟩ := meas_mem.1 hx
        exact ⟨h'.2 x.1 h1, by rw [h2]; simp only; omega⟩
    · intro h'
      rw [measures_ok h']
      simp [List.map_map, Function.comp_def]
  · have e : (measureAll c false).2 = false := by
      unfold measureAll
      simp only [next, Bool.false_eq_true, if_false, if_true]
      rw [if_pos (by omega)]
    rw [e]
    exact ⟨⟨fun h' => absurd h' (by simp), fun h' => absurd h'.1 h⟩, fun h' => absurd h' (by simp)⟩

/-- **C123 fails.** If the physical qubits are not numbered from 0 without gaps, `measureAll` throws after it has appended a barrier on a
qubit that there is not: here for the one qubit 1. -/
theorem c123_measureAll_gap : let r := measureAll ⟨1, fun q => if q = 1 then some 0 else none, [(1, 0)], 0, [], []⟩ true
    r.2 = false ∧ r.1.ops = [.barrier [0]] ∧ r.1.nc = 1 := by
  simp [measureAll, addReg, QC.hasReg, next, barrier, measures, measure, QC.qubitOk, List.range_succ]

/-- Two outputs, exchanged, are measured into a new register. -/
example : append ⟨2, some, [(0, 1), (1, 0)], 0, [], [.other 7]⟩ "c" =
    (⟨2, some, [(0, 1), (1, 0)], 2, [("c", 0, 2)], [.other 7, .barrier [0, 1], .measure 0 1, .measure 1 0]⟩, true) := by
  simp [append, addReg, QC.hasReg, next, barrier, measures, measure, QC.qubitOk, List.range_succ]

end MQT.IR.MeasureAll
