/-
Operations of acousto-optic deflectors (AOD).

Models `AodOperation` (`src/ir/operations/AodOperation.cpp` 33-163).  Numbers of type `double` are real numbers; the characters that
print a number and the text of a qubit are given.

Not modelled: a dimension other than X and Y (`static_cast` of other numbers); lists of different lengths (an assertion); qubits that
are missing from the map of registers.
-/
import Mathlib.Algebra.Order.Archimedean.Real.Basic
import Verif.IR.OpType

set_option autoImplicit false

noncomputable section

open Classical

namespace MQT.NA

open MQT.IR

/-! ### Model -/

/-- AodOperation.hpp 29. -/
inductive Dim | x | y
deriving DecidableEq

/-- AodOperation.hpp 30-39. -/
structure Single where
  dir : Dim
  start : ℝ
  stop : ℝ

/-- AodOperation.hpp 40-41, with the members of `Operation` that are used. -/
structure Aod where
  type : OpType
  name : String
  targets : List ℕ
  ops : List Single

namespace Aod

/-- The constructor (AodOperation.cpp 88-94); the others make the list of operations first. -/
def make (ty : OpType) (ts : List ℕ) (ops : List Single) : Aod := ⟨ty, ty.toStr, ts, ops⟩

/-- The constructor with lists of directions, starts and ends (AodOperation.cpp 54-66). -/
def ofLists (ty : OpType) (ts : List ℕ) (dirs : List Dim) (starts stops : List ℝ) : Aod :=
  make ty ts (List.zipWith (fun d p => ⟨d, p.1, p.2⟩) dirs (starts.zip stops))

/-- The constructor with the name of the type (AodOperation.cpp 68-74); `none`: it throws. -/
def ofName (nm : String) (ts : List ℕ) (dirs : List Dim) (starts stops : List ℝ) : Option Aod :=
  (OpType.fromStr nm).map fun ty => ofLists ty ts dirs starts stops

/-- `getEnds` (AodOperation.cpp 96-104). -/
def ends (a : Aod) (d : Dim) : List ℝ := (a.ops.filter (·.dir = d)).map (·.stop)

/-- `getStarts` (AodOperation.cpp 105-113). -/
def starts (a : Aod) (d : Dim) : List ℝ := (a.ops.filter (·.dir = d)).map (·.start)

/-- `getDistances` (AodOperation.cpp 121-129). -/
def distances (a : Aod) (d : Dim) : List ℝ := (a.ops.filter (·.dir = d)).map fun o => |o.stop - o.start|

/-- `*std::max_element` of a list that is not empty: the first of the largest. -/
def maxElement : ℝ → List ℝ → ℝ
  | m, [] => m
  | m, x :: l => maxElement (if m < x then x else m) l

/-- `getMaxDistance` (AodOperation.cpp 114-120). -/
def maxDistance (a : Aod) (d : Dim) : ℝ :=
  match a.distances d with
  | [] => 0
  | x :: l => maxElement x l

/-- `invert` (AodOperation.cpp 153-163). -/
def invert (a : Aod) : Aod :=
  if a.type = .aodMove then { a with ops := a.ops.map fun o => ⟨o.dir, o.stop, o.start⟩ }
  else if a.type = .aodActivate then { a with type := .aodDeactivate }
  else if a.type = .aodDeactivate then { a with type := .aodActivate }
  else a

/-- `toQASMString` (AodOperation.cpp 40-44). -/
def opText (num : ℝ → List Char) (o : Single) : List Char :=
  [if o.dir = .x then '0' else '1'] ++ ", ".toList ++ num o.start ++ ", ".toList ++ num o.stop ++ "; ".toList

/-- `seekp(-1, end)`, followed by output: the last character is overwritten. -/
def overwrite (t s : List Char) : List Char := t.dropLast ++ s

/-- `dumpOpenQASM` (AodOperation.cpp 130-151), given what the stream contains already. -/
def dump (num : ℝ → List Char) (reg : ℕ → List Char) (indent : ℕ) (a : Aod) (before : List Char) : List Char :=
  let t := before ++ List.replicate (indent * 2) ' ' ++ a.name.toList ++ " (".toList ++ a.ops.flatMap (opText num)
  let t := overwrite t ")".toList ++ a.targets.flatMap fun q => " ".toList ++ reg q ++ ",".toList
  overwrite t ";\n".toList

/-! ### Lemmas -/

theorem maxElement_spec : ∀ (l : List ℝ) (m : ℝ), maxElement m l ∈ m :: l ∧ ∀ y ∈ m :: l, y ≤ maxElement m l
  | [], m => by simp [maxElement]
  | x :: l, m => by
    obtain ⟨h1, h2⟩ := maxElement_spec l (if m < x then x else m)
    have h3 := h2 _ List.mem_cons_self
    simp only [maxElement]
    constructor
    · rcases List.mem_cons.1 h1 with e | e
      · rw [e]
        split_ifs <;> simp
      · exact List.mem_cons_of_mem _ (List.mem_cons_of_mem _ e)
    · intro y hy
      rcases List.mem_cons.1 hy with rfl | hy
      · refine le_trans ?_ h3
        split_ifs with h
        · exact h.le
        · exact le_refl _
      · rcases List.mem_cons.1 hy with rfl | hy
        · refine le_trans ?_ h3
          split_ifs with h
          · exact le_refl _
          · exact not_lt.1 h
        · exact h2 y (List.mem_cons_of_mem _ hy)

theorem flat_dropLast {α : Type} (f : α → List Char) (c : Char) : ∀ l : List α, l ≠ [] →
    (l.flatMap fun x => f x ++ [c]).dropLast = List.intercalate [c] (l.map f)
  | [], h => absurd rfl h
  | [x], _ => by simp [List.intercalate]
  | x :: y :: l, _ => by
    have ih := flat_dropLast f c (y :: l) (by simp)
    rw [List.flatMap_cons, List.dropLast_append_of_ne_nil (by simp), ih]
    simp [List.intercalate]

end Aod

end MQT.NA
