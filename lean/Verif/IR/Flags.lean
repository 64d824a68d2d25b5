/-
The ancillary and garbage flags of a circuit.

Models the members `nqubits`, `nancillae`, `ancillary` and `garbage` of `QuantumComputation` and what `addQubitRegister`,
`addAncillaryRegister`, `removeQubit`, `addAncillaryQubit`, `addQubit`, `reset`, `setLogicalQubitAncillary`, `setLogicalQubitsAncillary`,
`setLogicalQubitGarbage`, `setLogicalQubitsGarbage` and `unifyQuantumRegisters` do to them (`src/ir/QuantumComputation.cpp` 334-364,
385-410, 412-459, 463-496, 498-539, 720-730, 851-887, 930-938).

The two vectors are always resized together and have one size.  Qubits are numbers without a bound.  Not modelled: registers, layouts
(see `IR/Layout`) and the exceptions that depend on them, which leave the circuit as it is; whether a removed qubit lies in an ancillary
register is given.
-/
import Verif.Opt.RemoveDiagonal
import Mathlib.Data.Finset.Card
import Mathlib.Data.Finset.Image
import Mathlib.Logic.Function.Basic
import Mathlib.Tactic.Linarith

set_option autoImplicit false

namespace MQT.IR.Flags

open Function MQT.Opt

/-! ### Model -/

/-- The members: the numbers of qubits, the size of both vectors and their entries; entries past the end are not read. -/
structure FS where
  nq : ℕ
  na : ℕ
  size : ℕ
  anc : ℕ → Bool
  garb : ℕ → Bool

/-- `getNqubits` (QuantumComputation.hpp 98-100). -/
def FS.n (s : FS) : ℕ := s.nq + s.na

/-- The empty circuit. -/
def empty : FS := { nq := 0, na := 0, size := 0, anc := fun _ => false, garb := fun _ => false }

/-- The entries after `resize` from `size`: new ones are false. -/
def resized (f : ℕ → Bool) (size : ℕ) : ℕ → Bool := fun i => if i < size then f i else false

/-- `ancillary.resize(n)` and `garbage.resize(n)`. -/
def FS.resize (s : FS) (n : ℕ) : FS := { s with size := n, anc := resized s.anc s.size, garb := resized s.garb s.size }

/-- `addQubitRegister` (QuantumComputation.cpp 334-364). -/
def addReg (s : FS) (k : ℕ) : Res FS :=
  if k = 0 then .throws
  else if s.na ≠ 0 then .throws
  else
    let s := { s with nq := s.nq + k }
    .ok (s.resize (s.nq + s.na))

/-- The entries from `a` on, `k` of them, become true. -/
def setFrom (f : ℕ → Bool) (a : ℕ) : ℕ → (ℕ → Bool)
  | 0 => f
  | k + 1 => update (setFrom f a k) (a + k) true

/-- `addAncillaryRegister` (QuantumComputation.cpp 385-410). -/
def addAncReg (s : FS) (k : ℕ) : Res FS :=
  if k = 0 then .throws
  else
    let total := s.nq + s.na
    let s := s.resize (total + k)
    .ok { s with anc := setFrom s.anc total k, na := s.na + k }

/-- `addAncillaryQubit` (QuantumComputation.cpp 474-495); `output` tells whether there is an output. -/
def addAnc (s : FS) (output : Bool) : Res FS :=
  let l := s.nq + s.na
  let s := s.resize (l + 1)
  .ok { s with na := s.na + 1, anc := update s.anc l true, garb := if output then s.garb else update s.garb l true }

/-- `for (i = total - 1; i > l; --i) f[i] = f[i - 1]` (QuantumComputation.cpp 532-535), for the given first `i`. -/
def shiftUp (l : ℕ) : ℕ → (ℕ → Bool) → (ℕ → Bool)
  | 0, f => f
  | i + 1, f => if l < i + 1 then shiftUp l i (update f (i + 1) (f i)) else f

/-- `addQubit` (QuantumComputation.cpp 507-539). -/
def addQubit (s : FS) (l : ℕ) : Res FS :=
  if s.nq < l then .throws
  else
    let s := { s with nq := s.nq + 1 }
    let total := s.nq + s.na
    let s := s.resize total
    .ok { s with anc := update (shiftUp l (total - 1) s.anc) l false, garb := update (shiftUp l (total - 1) s.garb) l false }

/-- `for (i = l; i < total; ++i) f[i] = f[i + 1]` (QuantumComputation.cpp 450-453), for the given number of rounds. -/
def shiftDown : ℕ → ℕ → (ℕ → Bool) → (ℕ → Bool)
  | _, 0, f => f
  | l, k + 1, f => shiftDown (l + 1) k (update f l (f (l + 1)))

/-- `removeQubit` (QuantumComputation.cpp 413-459); `inReg` tells whether the qubit lies in an ancillary register.  `ancillary.at` throws;
reading and writing past the end, and counting below 0, count as undefined. -/
def remove (s : FS) (l : ℕ) (inReg : Bool) : Res FS :=
  if ¬ inReg ∧ s.size ≤ l then .throws
  else
    let a := inReg || s.anc l
    if (if a then s.na else s.nq) = 0 then .ub
    else
      let s := if a then { s with na := s.na - 1 } else { s with nq := s.nq - 1 }
      let total := s.nq + s.na
      if s.size ≤ total then .ub
      else .ok { s with
        anc := update (shiftDown l (total - l) s.anc) total false
        garb := update (shiftDown l (total - l) s.garb) total false }

/-- `setLogicalQubitAncillary` (QuantumComputation.cpp 851-860). -/
def setAnc (s : FS) (l : ℕ) : Res FS :=
  if s.size ≤ l then .ub
  else if s.anc l then .ok s
  else if s.nq = 0 then .ub
  else .ok { s with nq := s.nq - 1, na := s.na + 1, anc := update s.anc l true }

/-- `setLogicalQubitGarbage` (QuantumComputation.cpp 869-880). -/
def setGarb (s : FS) (l : ℕ) : Res FS := if s.size ≤ l then .ub else .ok { s with garb := update s.garb l true }

/-- A loop over `k` qubits from `l` on (QuantumComputation.cpp 862-867, 882-887). -/
def range (f : FS → ℕ → Res FS) : ℕ → ℕ → FS → Res FS
  | _, 0, s => .ok s
  | l, k + 1, s => (f s l).bind (range f (l + 1) k)

/-- `setLogicalQubitsAncillary` (QuantumComputation.cpp 862-867). -/
def setAncs (s : FS) (lo hi : ℕ) : Res FS := range setAnc lo (hi + 1 - lo) s

/-- `setLogicalQubitsGarbage` (QuantumComputation.cpp 882-887). -/
def setGarbs (s : FS) (lo hi : ℕ) : Res FS := range setGarb lo (hi + 1 - lo) s

/-- `unifyQuantumRegisters` (QuantumComputation.cpp 930-938). -/
def unify (s : FS) : FS := { s with nq := s.nq + s.na, na := 0 }

/-- `reset` (QuantumComputation.cpp 720-730). -/
def reset (s : FS) : FS := { s with nq := 0, na := 0 }

/-- The operations. -/
inductive Op
  | addReg (k : ℕ)
  | addAncReg (k : ℕ)
  | addAnc (output : Bool)
  | addQubit (l : ℕ)
  | remove (l : ℕ) (inReg : Bool)
  | setAnc (l : ℕ)
  | setGarb (l : ℕ)
  | unify
  | reset

def step (s : FS) : Op → Res FS
  | .addReg k => Flags.addReg s k
  | .addAncReg k => Flags.addAncReg s k
  | .addAnc b => Flags.addAnc s b
  | .addQubit l => Flags.addQubit s l
  | .remove l r => Flags.remove s l r
  | .setAnc l => Flags.setAnc s l
  | .setGarb l => Flags.setGarb s l
  | .unify => .ok (Flags.unify s)
  | .reset => .ok (Flags.reset s)

/-- A history; an operation that throws changes nothing. -/
def exec (s : FS) : List Op → Res FS
  | [] => .ok s
  | o :: l => match step s o with
    | .throws => exec s l
    | .ok s' => exec s' l
    | r => r

/-! ### Specification -/

/-- The ancillary qubits according to the flags. -/
def FS.ancillae (s : FS) : Finset ℕ := (Finset.range s.n).filter (s.anc · = true)

/-- The numbers agree with the flags, every qubit has flags, and there are no flags besides. -/
structure Good (s : FS) : Prop where
  size : s.n ≤ s.size
  anc : ∀ i, s.n ≤ i → i < s.size → s.anc i = false
  garb : ∀ i, s.n ≤ i → i < s.size → s.garb i = false
  count : s.ancillae.card = s.na

/-- Operations on qubits that there are; a qubit in an ancillary register is ancillary.  Not `reset`, nor `unifyQuantumRegisters` with
ancillary qubits. -/
def Allowed (s : FS) : Op → Prop
  | .remove l r => l < s.n ∧ (r = true → s.anc l = true)
  | .setAnc l => l < s.n
  | .setGarb l => l < s.n
  | .unify => s.na = 0
  | .reset => False
  | _ => True

def AllowedAll (s : FS) : List Op → Prop
  | [] => True
  | o :: l => Allowed s o ∧ match step s o with
    | .throws => AllowedAll s l
    | .ok s' => AllowedAll s' l
    | _ => True

/-- Flags of qubits before and after a qubit is inserted. -/
def inserted (f : ℕ → Bool) (l : ℕ) : ℕ → Bool := fun i => if i < l then f i else if i = l then false else f (i - 1)

/-- Flags of qubits before and after a qubit is taken out. -/
def dropped (f : ℕ → Bool) (l : ℕ) : ℕ → Bool := fun i => if i < l then f i else f (i + 1)

/-! ### Lemmas -/

theorem setFrom_eq (f : ℕ → Bool) (a k i : ℕ) : setFrom f a k i = if a ≤ i ∧ i < a + k then true else f i := by
  induction k with
  | zero => rw [if_neg (by omega)]; rfl
  | succ k ih =>
    unfold setFrom
    by_cases h : i = a + k
    · subst h
      rw [update_self, if_pos (by omega)]
    · rw [update_of_ne h, ih]
      by_cases h' : a ≤ i ∧ i < a + k
      · rw [if_pos h', if_pos (by omega)]
      · rw [if_neg h', if_neg (by omega)]

theorem shiftUp_eq (l : ℕ) : ∀ (k : ℕ) (f : ℕ → Bool) (i : ℕ), shiftUp l k f i = if l < i ∧ i ≤ k then f (i - 1) else f i
  | 0, f, i => by rw [if_neg (by omega)]; rfl
  | k + 1, f, i => by
    unfold shiftUp
    by_cases h : l < k + 1
    · rw [if_pos h, shiftUp_eq l k]
      by_cases h1 : i = k + 1
      · subst h1
        rw [if_neg (by omega), if_pos (by omega), update_self]
        rfl
      · rw [update_of_ne h1]
        by_cases h2 : l < i ∧ i ≤ k
        · rw [if_pos h2, if_pos (by omega), update_of_ne (by omega)]
        · rw [if_neg h2, if_neg (by omega)]
    · rw [if_neg h, if_neg (by omega)]

theorem shiftDown_eq : ∀ (k l : ℕ) (f : ℕ → Bool) (i : ℕ), shiftDown l k f i = if l ≤ i ∧ i < l + k then f (i + 1) else f i
  | 0, l, f, i => by rw [if_neg (by omega)]; rfl
  | k + 1, l, f, i => by
    unfold shiftDown
    rw [shiftDown_eq k (l + 1)]
    by_cases h1 : i = l
    · subst h1
      rw [if_neg (by omega), if_pos (by omega), update_self]
    · rw [update_of_ne h1]
      by_cases h2 : l + 1 ≤ i ∧ i < l + 1 + k
      · rw [if_pos h2, if_pos (by omega), update_of_ne (by omega)]
      · rw [if_neg h2, if_neg (by omega)]

theorem mem_ancillae {s : FS} {i : ℕ} : i ∈ s.ancillae ↔ i < s.n ∧ s.anc i = true := by
  simp [FS.ancillae]

theorem Good.anc_resized {s : FS} (h : Good s) (i : ℕ) : resized s.anc s.size i = if i < s.nq + s.na then s.anc i else false := by
  unfold resized
  have : s.nq + s.na ≤ s.size := h.size
  by_cases h1 : i < s.nq + s.na
  · rw [if_pos h1, if_pos (by omega)]
  · rw [if_neg h1]
    by_cases h2 : i < s.size
    · rw [if_pos h2, h.anc i (not_lt.1 h1) h2]
    · rw [if_neg h2]

theorem Good.garb_resized {s : FS} (h : Good s) (i : ℕ) : resized s.garb s.size i = if i < s.nq + s.na then s.garb i else false := by
  unfold resized
  have : s.nq + s.na ≤ s.size := h.size
  by_cases h1 : i < s.nq + s.na
  · rw [if_pos h1, if_pos (by omega)]
  · rw [if_neg h1]
    by_cases h2 : i < s.size
    · rw [if_pos h2, h.garb i (not_lt.1 h1) h2]
    · rw [if_neg h2]

end MQT.IR.Flags
