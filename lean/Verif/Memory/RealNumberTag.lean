import Mathlib.Algebra.Group.Defs

/-
Model of the sign-tagged pointers of `RealNumber` (src/dd/RealNumber.cpp:25-68): the sign of a real
number is stored in the least significant bit of the pointer to the (non-negative) table entry.
Pointers are 64-bit words; the memory of values is an arbitrary function; values are elements of an
arbitrary type with negation.
-/
namespace MQT.Tag

set_option autoImplicit false

abbrev Ptr := BitVec 64

/-- RealNumber.cpp:25. -/
def LSB : Ptr := 1

/-- RealNumber.cpp:27-30. -/
def getAlignedPointer (e : Ptr) : Ptr := e &&& ~~~LSB

/-- RealNumber.cpp:32-35. -/
def getNegativePointer (e : Ptr) : Ptr := e ||| LSB

/-- RealNumber.cpp:37-43; `zero` is `&constants::zero`. -/
def flipPointerSign (zero e : Ptr) : Ptr := if e = zero then zero else e ^^^ LSB

/-- RealNumber.cpp:45-47. -/
def isNegativePointer (e : Ptr) : Bool := e &&& LSB != 0

/-- RealNumber.cpp:49-55: `val`; `mem` gives the member `value` of the entry at an address. -/
def val {F : Type} [Neg F] (mem : Ptr → F) (e : Ptr) : F :=
  if isNegativePointer e then - mem (getAlignedPointer e) else mem e

/-- RealNumber.cpp:57-63: `refCount`. -/
def refCount (ref : Ptr → Nat) (e : Ptr) : Nat :=
  if isNegativePointer e then ref (getAlignedPointer e) else ref e

end MQT.Tag
