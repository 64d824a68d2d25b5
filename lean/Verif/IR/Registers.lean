/-
The registers of a circuit when qubits are added and removed.

Models `consolidateRegister`, `removeQubitfromQubitRegister` and `addQubitToQubitRegister` (`src/ir/QuantumComputation.cpp` 76-106,
119-150, 162-191).  A map of registers is a list; a hash map is traversed in any order, given by a function that may permute the list.
Names are lists of characters.  The name of a new register, `defaultRegName + "_" + std::to_string(physicalQubitIndex)`, is given.
Qubits are numbers without a bound.
-/
import Mathlib.Data.List.Basic
import Mathlib.Logic.Function.Basic
import Mathlib.Tactic.Linarith

set_option autoImplicit false

namespace MQT.IR.Registers

/-! ### Model -/

abbrev Name := List Char

/-- `Register` (Register.hpp): the name, the first qubit and the number of qubits. -/
structure Reg where
  name : Name
  start : ℕ
  size : ℕ
deriving DecidableEq

abbrev Regs := List Reg

def lo : Name := ['_', 'l']

def hi : Name := ['_', 'h']

/-- `contains` (Register.hpp 47-49). -/
def Reg.has (r : Reg) (q : ℕ) : Prop := r.start ≤ q ∧ q < r.start + r.size

/-- `regs.erase(name)`. -/
def erase (nm : Name) (l : Regs) : Regs := l.filter (fun r => r.name ≠ nm)

/-- `regs.try_emplace`: nothing happens if there is a register of the name. -/
def emplace (r : Reg) (l : Regs) : Regs := if l.any (fun s => s.name = r.name) then l else l ++ [r]

/-- The name without the ending `_l`, if it has this ending and is longer than it (QuantumComputation.cpp 82). -/
def lowBase (nm : Name) : Option Name := if 2 < nm.length ∧ nm.drop (nm.length - 2) = lo then some (nm.take (nm.length - 2)) else none

/-- A round of the loop (QuantumComputation.cpp 79-104): the first register that is a lower part is joined with its higher part.  `none`: the
loop ends. -/
def fuse (ord : Regs → Regs) (l : Regs) : Option Regs :=
  (ord l).find? (fun r => (lowBase r.name).isSome) |>.bind fun r =>
    (lowBase r.name).bind fun b =>
      (l.find? (fun s => s.name = b ++ hi)).bind fun h =>
        if r.start + r.size = h.start then some (emplace ⟨b, r.start, r.size + h.size⟩ (erase (b ++ hi) (erase r.name l))) else none

/-- `consolidateRegister` (QuantumComputation.cpp 76-106), with a bound on the number of rounds. -/
def consolidate (ord : Regs → Regs) : ℕ → Regs → Regs
  | 0, l => l
  | k + 1, l => match fuse ord l with
    | none => l
    | some l' => consolidate ord k l'

/-- The register of the name is changed. -/
def change (nm : Name) (r' : Reg) (l : Regs) : Regs := l.map fun s => if s.name = nm then r' else s

/-- `removeQubitfromQubitRegister` (QuantumComputation.cpp 119-150). -/
def remove (l : Regs) (r : Reg) (idx : ℕ) : Regs :=
  if idx = 0 then
    if r.size = 1 then erase r.name l else change r.name { r with start := r.start + 1, size := r.size - 1 } l
  else if idx = r.size - 1 then change r.name { r with size := r.size - 1 } l
  else emplace ⟨r.name ++ hi, r.start + idx + 1, r.size - idx - 1⟩ (emplace ⟨r.name ++ lo, r.start, idx⟩ (erase r.name l))

/-- The register that the qubit is added to (QuantumComputation.cpp 168-181). -/
def grown (r : Reg) (p : ℕ) : Option Reg :=
  if r.start = p + 1 then some { r with start := r.start - 1, size := r.size + 1 }
  else if r.start + r.size = p then some { r with size := r.size + 1 }
  else none

/-- `addQubitToQubitRegister` (QuantumComputation.cpp 162-191); `nm` is the name of a new register. -/
def add (ord : Regs → Regs) (l : Regs) (p : ℕ) (default nm : Name) : Regs :=
  let found := (ord l).find? (fun r => (grown r p).isSome)
  let l := match found with
    | some r => match grown r p with
      | some r' => change r.name r' l
      | none => l
    | none => l
  let l := consolidate ord l.length l
  if l = [] then emplace ⟨default, p, 1⟩ l
  else if found.isNone then emplace ⟨nm, p, 1⟩ l
  else l

/-! ### Specification -/

/-- The qubits that lie in a register. -/
def Covered (l : Regs) (q : ℕ) : Prop := ∃ r ∈ l, r.has q

/-- `b` is the name of a part of a part of … `a`. -/
inductive Below (a : Name) : Name → Prop
  | low : Below a (a ++ lo)
  | high : Below a (a ++ hi)
  | stepLow {b : Name} (h : Below a b) : Below a (b ++ lo)
  | stepHigh {b : Name} (h : Below a b) : Below a (b ++ hi)

/-- Registers have different names and no qubits in common, none is empty, and there is no part of a register next to the register. -/
structure Good (l : Regs) : Prop where
  inj : ∀ r ∈ l, ∀ s ∈ l, r.name = s.name → r = s
  pos : ∀ r ∈ l, 0 < r.size
  disj : ∀ r ∈ l, ∀ s ∈ l, ∀ q, r.has q → s.has q → r = s
  anti : ∀ r ∈ l, ∀ s ∈ l, ¬ Below r.name s.name

/-- The name is not in use, nor are the names of its parts. -/
def Fresh (nm : Name) (l : Regs) : Prop := ∀ r ∈ l, r.name ≠ nm ∧ ¬ Below nm r.name

/-! ### Lemmas -/

theorem mem_erase {nm : Name} {l : Regs} {r : Reg} : r ∈ erase nm l ↔ r ∈ l ∧ r.name ≠ nm := by
  simp [erase]

theorem mem_emplace {r s : Reg} {l : Regs} (h : ∀ x ∈ l, x.name ≠ r.name) : s ∈ emplace r l ↔ s ∈ l ∨ s = r := by
  unfold emplace
  rw [if_neg (by simpa using h)]
  simp

theorem mem_change {nm : Name} {r' s : Reg} {l : Regs} : s ∈ change nm r' l ↔ (s ∈ l ∧ s.name ≠ nm) ∨ (s = r' ∧ ∃ r ∈ l, r.name = nm) := by
  unfold change
  rw [List.mem_map]
  constructor
  · rintro ⟨x, hx, rfl⟩
    by_cases h : x.name = nm
    · rw [if_pos h]
      exact Or.inr ⟨rfl, x, hx, h⟩
    · rw [if_neg h]
      exact Or.inl ⟨hx, h⟩
  · rintro (⟨h1, h2⟩ | ⟨rfl, r, hr, rfl⟩)
    · exact ⟨s, h1, if_neg h2⟩
    · exact ⟨r, hr, if_pos rfl⟩

theorem lo_ne_hi (a b : Name) : a ++ lo ≠ b ++ hi := by
  intro h
  have := congrArg List.getLast? h
  simp [lo, hi] at this

theorem Below.length {a b : Name} (h : Below a b) : a.length < b.length := by
  induction h with
  | low => simp [lo]
  | high => simp [hi]
  | stepLow _ ih => rw [List.length_append]; omega
  | stepHigh _ ih => rw [List.length_append]; omega

theorem Below.irrefl {a : Name} : ¬ Below a a := fun h => lt_irrefl _ h.length

theorem Below.of_low {a b : Name} (h : Below (a ++ lo) b) : Below a b := by
  induction h with
  | low => exact .stepLow .low
  | high => exact .stepHigh .low
  | stepLow _ ih => exact .stepLow ih
  | stepHigh _ ih => exact .stepHigh ih

theorem Below.of_high {a b : Name} (h : Below (a ++ hi) b) : Below a b := by
  induction h with
  | low => exact .stepLow .high
  | high => exact .stepHigh .high
  | stepLow _ ih => exact .stepLow ih
  | stepHigh _ ih => exact .stepHigh ih

theorem Below.split {a b : Name} (h : Below a b) : b = a ++ lo ∨ b = a ++ hi ∨ Below (a ++ lo) b ∨ Below (a ++ hi) b := by
  induction h with
  | low => exact Or.inl rfl
  | high => exact Or.inr (Or.inl rfl)
  | stepLow _ ih =>
    rcases ih with rfl | rfl | h | h
    · exact Or.inr (Or.inr (Or.inl .low))
    · exact Or.inr (Or.inr (Or.inr .low))
    · exact Or.inr (Or.inr (Or.inl (.stepLow h)))
    · exact Or.inr (Or.inr (Or.inr (.stepLow h)))
  | stepHigh _ ih =>
    rcases ih with rfl | rfl | h | h
    · exact Or.inr (Or.inr (Or.inl .high))
    · exact Or.inr (Or.inr (Or.inr .high))
    · exact Or.inr (Or.inr (Or.inl (.stepHigh h)))
    · exact Or.inr (Or.inr (Or.inr (.stepHigh h)))

theorem below_low {a b : Name} (h : Below a (b ++ lo)) : a = b ∨ Below a b := by
  generalize hc : b ++ lo = c at h
  cases h with
  | low => exact Or.inl (List.append_cancel_right hc).symm
  | high => exact absurd hc (lo_ne_hi _ _)
  | stepLow h => exact Or.inr ((List.append_cancel_right hc) ▸ h)
  | stepHigh h => exact absurd hc (lo_ne_hi _ _)

theorem below_high {a b : Name} (h : Below a (b ++ hi)) : a = b ∨ Below a b := by
  generalize hc : b ++ hi = c at h
  cases h with
  | low => exact absurd hc.symm (lo_ne_hi _ _)
  | high => exact Or.inl (List.append_cancel_right hc).symm
  | stepLow h => exact absurd hc.symm (lo_ne_hi _ _)
  | stepHigh h => exact Or.inr ((List.append_cancel_right hc) ▸ h)

theorem lowBase_eq {nm b : Name} (h : lowBase nm = some b) : nm = b ++ lo := by
  unfold lowBase at h
  split_ifs at h with h1
  rw [← Option.some.inj h, ← h1.2, List.take_append_drop]

/-- What a round of the loop did. -/
theorem fuse_some {ord : Regs → Regs} (ho : ∀ l r, r ∈ ord l ↔ r ∈ l) {l l' : Regs} (h : fuse ord l = some l') :
    ∃ r ∈ l, ∃ s ∈ l, ∃ b, r.name = b ++ lo ∧ s.name = b ++ hi ∧ r.start + r.size = s.start ∧
      l' = emplace ⟨b, r.start, r.size + s.size⟩ (erase (b ++ hi) (erase r.name l)) := by
  unfold fuse at h
  obtain ⟨r, hr, h⟩ := Option.bind_eq_some_iff.1 h
  obtain ⟨b, hb, h⟩ := Option.bind_eq_some_iff.1 h
  obtain ⟨s, hs, h⟩ := Option.bind_eq_some_iff.1 h
  split_ifs at h with he
  have hn := List.find?_some hs
  simp only [decide_eq_true_eq] at hn
  exact ⟨r, (ho _ _).1 (List.mem_of_find?_eq_some hr), s, List.mem_of_find?_eq_some hs, b, lowBase_eq hb, hn, he, (Option.some.inj h).symm⟩

theorem erase_length {l : Regs} {r : Reg} (hr : r ∈ l) : (erase r.name l).length < l.length := by
  unfold erase
  rw [List.length_filter_lt_length_iff_exists]
  exact ⟨r, hr, by simp⟩

theorem fuse_length {ord : Regs → Regs} (ho : ∀ l r, r ∈ ord l ↔ r ∈ l) {l l' : Regs} (h : fuse ord l = some l') : l'.length < l.length := by
  obtain ⟨r, hr, s, hs, b, e1, e2, -, rfl⟩ := fuse_some ho h
  have h1 := erase_length hr
  have h2 := erase_length (mem_erase.2 ⟨hs, by rw [e1, e2]; exact (lo_ne_hi _ _).symm⟩ : s ∈ erase r.name l)
  rw [e2] at h2
  unfold emplace
  split_ifs
  · omega
  · rw [List.length_append, List.length_singleton]; omega

end MQT.IR.Registers
