/-
Shared vocabulary of the models: bounds-checked vectors and explicit outcomes.

`Vec` models `std::vector`: `get?`/`set?` answer `none` for an out-of-range `operator[]`, which is
undefined behaviour in C++; the models never replace it by a default value.
-/

set_option autoImplicit false
namespace MQT

/-- `std::vector<β>`: a length and the values below it (values at or above `size` are never read). -/
structure Vec (β : Type) where
  size : Nat
  at' : Nat → β

namespace Vec
variable {β γ : Type}

def empty [Inhabited β] : Vec β := ⟨0, fun _ => default⟩

/-- `emplace_back`. -/
def push (v : Vec β) (x : β) : Vec β := ⟨v.size + 1, fun i => if i = v.size then x else v.at' i⟩

/-- `std::vector(n, x)`. -/
def fill (n : Nat) (x : β) : Vec β := ⟨n, fun _ => x⟩

def map (f : β → γ) (v : Vec β) : Vec γ := ⟨v.size, fun i => f (v.at' i)⟩

def get? (v : Vec β) (i : Nat) : Option β := if i < v.size then some (v.at' i) else none

def set? (v : Vec β) (i : Nat) (x : β) : Option (Vec β) :=
  if i < v.size then some ⟨v.size, fun k => if k = i then x else v.at' k⟩ else none

def toList (v : Vec β) : List β := (List.range v.size).map v.at'

end Vec

/-- Outcome of a query: undefined behaviour, a C++ exception, or a value. -/
inductive Res (β : Type) where
  | ub
  | throw
  | ok (b : β)
  deriving DecidableEq

/-- Outcome of a mutating call: undefined behaviour, or a new state with the flag "threw". -/
inductive Out (σ : Type) where
  | ub
  | done (s : σ) (threw : Bool)

end MQT
