import Mathlib.Order.Defs.LinearOrder
import Mathlib.Order.Compare
import Mathlib.Data.List.Basic
import Mathlib.Data.List.Nodup
import Verif.Common.Vec

set_option autoImplicit false

/-
Model of the neutral-atom computation:
 * include/mqt-core/na/entities/Location.hpp:30-130 (comparison operators),
 * src/na/NAComputation.cpp:32-55 (`getLocationOfAtomAfterOperation`), 70-237 (`validate`),
 * include/mqt-core/na/operations/{LoadOp,StoreOp,MoveOp,LocalOp,GlobalOp}.hpp (data only).

Coordinates are taken from an arbitrary linear order with a zero: `double` without NaN. Atoms
(`const Atom*`) are elements of a type with decidable equality. Error strings are not modelled.
The constructors of LoadOp/StoreOp/MoveOp throw unless there are as many targets as atoms, hence an
operation with targets is a list of pairs.
-/
namespace MQT.NA

/-- Location.hpp:30-34. -/
structure Loc (R : Type) where
  x : R
  y : R
  deriving DecidableEq

namespace Loc
variable {R : Type} [LinearOrder R]

/-- Location.hpp:79-81. -/
def eq (a b : Loc R) : Bool := decide (a.x = b.x) && decide (a.y = b.y)
/-- Location.hpp:86-88. -/
def ne (a b : Loc R) : Bool := !(eq a b)
/-- Location.hpp:93-95. -/
def lt (a b : Loc R) : Bool := decide (a.x < b.x) || (decide (a.x = b.x) && decide (a.y < b.y))
/-- Location.hpp:100-102: `other < *this`. -/
def gt (a b : Loc R) : Bool := lt b a
/-- Location.hpp:107-109: `!(other < *this)`. -/
def ge (a b : Loc R) : Bool := !(lt b a)
/-- Location.hpp:114-116: `*this >= other`. -/
def le (a b : Loc R) : Bool := ge a b
end Loc

/-- The operations, as far as `validate` looks at them. `load`/`store` with optional targets
(LoadOp.hpp:29-76, StoreOp.hpp), `move` always with targets (MoveOp.hpp:24-62). -/
inductive Op (A R : Type) where
  | load (atoms : List A)
  | loadTo (pairs : List (A × Loc R))
  | store (atoms : List A)
  | storeTo (pairs : List (A × Loc R))
  | move (pairs : List (A × Loc R))
  | localOp (atoms : List A)
  | globalOp

/-- NAComputation.hpp:35-42. -/
structure Prog (A R : Type) where
  atoms : List A
  initial : List (A × Loc R)
  ops : List (Op A R)

variable {A R : Type} [DecidableEq A] [LinearOrder R] [Zero R]

/-- `ShuttlingOp::getAtoms` / `LocalOp::getAtoms`. -/
def Op.atoms : Op A R → List A
  | .load l => l
  | .loadTo p => p.map (·.1)
  | .store l => l
  | .storeTo p => p.map (·.1)
  | .move p => p.map (·.1)
  | .localOp l => l
  | .globalOp => []

/-- `hasTargetLocations` and `getTargetLocations`, paired with the atoms. -/
def Op.targets : Op A R → Option (List (A × Loc R))
  | .loadTo p => some p
  | .storeTo p => some p
  | .move p => some p
  | _ => none

/-- `std::unordered_map<const Atom*, Location>` lookup; the keys of `initial` are distinct. -/
def lookupLoc (m : List (A × Loc R)) (a : A) : Option (Loc R) := (m.find? (fun p => p.1 = a)).map (·.2)

/-- `targetLocations[k]` for the first `k` with `opAtoms[k] == &atom` (NAComputation.cpp:42-47). -/
def Op.targetOf (op : Op A R) (a : A) : Option (Loc R) :=
  match op.targets with
  | none => none
  | some p => lookupLoc p a

/-- NAComputation.cpp:32-55: `getLocationOfAtomAfterOperation`; the operation reference is the index
`k` of the operation in the program; `none` is the `std::out_of_range` of `initialLocations_.at`. -/
def locationAfter (p : Prog A R) (a : A) (k : Nat) : Option (Loc R) :=
  let rec go : List (Op A R) → Nat → Loc R → Loc R
    | [], _, cur => cur
    | op :: ops, i, cur =>
      let cur := match op.targetOf a with
        | some l => l
        | none => cur
      if i = k then cur else go ops (i + 1) cur
  (lookupLoc p.initial a).map (go p.ops 0)

/-- State of `validate`: `currentLocations`, `currentlyShuttling`. -/
structure St (A R : Type) where
  loc : A → Option (Loc R)
  shuttling : A → Bool

/-- `currentLocations[a]` (NAComputation.cpp:140-141): an absent key is value-initialised to (0,0).
(The insertion itself cannot be observed later, since reads of absent keys give the same value.) -/
def St.read (s : St A R) (a : A) : Loc R := (s.loc a).getD ⟨0, 0⟩

/-- NAComputation.cpp:134-207: the checks on one pair of atoms `i < j`. -/
def pairOk (s : St A R) (p q : A × Loc R) : Bool :=
  let s1 := s.read p.1
  let s2 := s.read q.1
  let e1 := p.2
  let e2 := q.2
  !(decide (p.1 = q.1)) && !(Loc.eq e1 e2)
  && !(decide (s1.x = s2.x) && !(decide (e1.x = e2.x)))
  && !(decide (s1.y = s2.y) && !(decide (e1.y = e2.y)))
  && !(decide (s1.x < s2.x) && decide (e2.x ≤ e1.x))
  && !(decide (s1.y < s2.y) && decide (e2.y ≤ e1.y))
  && !(decide (s2.x < s1.x) && decide (e1.x ≤ e2.x))
  && !(decide (s2.y < s1.y) && decide (e1.y ≤ e2.y))

/-- NAComputation.cpp:131-209: all pairs `i < j`. -/
def pairsOk (s : St A R) : List (A × Loc R) → Bool
  | [] => true
  | p :: ps => ps.all (pairOk s p) && pairsOk s ps

/-- NAComputation.cpp:210-212: `currentLocations[opAtoms[i]] = targetLocations[i]`. -/
def assign (l : A → Option (Loc R)) : List (A × Loc R) → A → Option (Loc R)
  | [] => l
  | (a, t) :: ps => assign (fun b => if b = a then some t else l b) ps

/-- NAComputation.cpp:129-213: the part common to all shuttling operations. -/
def shuttleTargets (s : St A R) (op : Op A R) : Option (St A R) :=
  match op.targets with
  | none => some s
  | some ps => if pairsOk s ps then some { s with loc := assign s.loc ps } else none

/-- NAComputation.cpp:226-233: `usedAtoms.emplace(atom).second` for all atoms. -/
def localOk : List A → List A → Bool
  | _, [] => true
  | used, a :: l => if a ∈ used then false else localOk (a :: used) l

/-- NAComputation.cpp:91-235: one iteration of the loop over the operations; `none` = `return
{false, ..}`. -/
def step (s : St A R) (op : Op A R) : Option (St A R) :=
  match op with
  | .globalOp => some s
  | .localOp l => if localOk [] l then some s else none
  | .load _ | .loadTo _ =>
    if op.atoms.any (fun a => s.shuttling a) then none
    else shuttleTargets { s with shuttling := fun a => s.shuttling a || decide (a ∈ op.atoms) } op
  | .move _ =>
    if op.atoms.any (fun a => !s.shuttling a) then none
    else shuttleTargets s op
  | .store _ | .storeTo _ =>
    if op.atoms.any (fun a => !s.shuttling a) then none
    else (shuttleTargets s op).map fun s =>
      { s with shuttling := fun a => s.shuttling a && !(decide (a ∈ op.atoms)) }

/-- The loop. -/
def steps (s : St A R) : List (Op A R) → Option (St A R)
  | [] => some s
  | op :: ops => (step s op).bind fun s => steps s ops

/-- NAComputation.cpp:70-237: `validate().first`. -/
def validate (p : Prog A R) : Bool :=
  if p.atoms.length ≠ p.initial.length then false
  else (steps ⟨lookupLoc p.initial, fun _ => false⟩ p.ops).isSome

end MQT.NA
