/-
Collecting operations into blocks.

Sources in /repo: src/circuit_optimizer/CircuitOptimizer.cpp 1320-1418 (`DSU`), 1420-1573
(`collectBlocks`); src/ir/operations/CompoundOperation.cpp 260-289 (`merge`,
`isConvertibleToSingleOperation`, `collapseToSingleOperation`).

Simplifications: `reorderOperations` and `deferMeasurements`, which are called first (1427-1428),
are not part of the model.  Keys that a map of the `DSU` does not have yet are taken to have the
values with which `findBlock` creates them.  The circuit under construction is a list of slots: the
part of the circuit before the iterator, with `none` for a pointer whose operation has been moved
into a block; pointers into the circuit are positions.  The order in which an unordered map is
traversed and `std::sort` on entries that compare equal are parameters.  The fuel bounds the depth of
the recursion of `findBlock`; `none` as a result means that it does not end, or that a null pointer
is dereferenced.
-/
import Verif.Opt.Op

set_option autoImplicit false

namespace MQT.Opt.Blocks

open MQT.IR
open Function (update)

variable {P : Type}

/-- The disjoint sets and the circuit. -/
structure St (P : Type) where
  parent : ℕ → ℕ := id
  bits : ℕ → List ℕ := fun q => [q]
  /-- `currentBlockInCircuit` -/
  cur : ℕ → Option ℕ := fun _ => none
  /-- `currentBlockOperations` -/
  ops : ℕ → List (Op P) := fun _ => []
  slots : List (Option (Op P)) := []
  /-- Not part of the code, and not read: whether a qubit has been added to a block that stands before
  an operation outside of the block that acts on the qubit. -/
  stale : Bool := false

/-- `findBlock` (1342-1354): the block and the compressed paths. -/
def findP : ℕ → (ℕ → ℕ) → ℕ → Option (ℕ × (ℕ → ℕ))
  | 0, _, _ => none
  | f + 1, p, q =>
    if p q = q then some (q, p)
    else (findP f p (p q)).map fun r => (r.1, update r.2 q r.1)

/-- `findBlock`. -/
def find (f : ℕ) (S : St P) (q : ℕ) : Option (ℕ × St P) :=
  (findP f S.parent q).map fun r => (r.1, { S with parent := r.2 })

/-- The identity that replaces a block that has been merged into another one (1380-1381). -/
def ident : Op P := .std { type := .i, targets := [0] }

/-- Is there an operation behind the block `r1` that acts on a qubit of the block `r2`? -/
def behind (S : St P) (r1 r2 : ℕ) : Bool :=
  match S.cur r1 with
  | none => false
  | some i => (S.slots.drop (i + 1)).any fun s =>
    match s with
    | none => false
    | some o => decide (o.type ≠ .i) && (S.bits r2).any (· ∈ o.acts)

/-- The part of `unionBlock` after the parents have been exchanged if necessary (1374-1385). -/
def merge (S : St P) (r1 r2 : ℕ) : St P where
  parent := update S.parent r2 r1
  bits := update (update S.bits r1 (S.bits r1 ++ S.bits r2)) r2 []
  cur := update S.cur r2 none
  ops := update (update S.ops r1 (S.ops r1 ++ S.ops r2)) r2 []
  slots := match S.cur r2 with
    | none => S.slots
    | some i => S.slots.set i (some ident)
  stale := S.stale || behind S r1 r2

/-- `unionBlock` (1362-1386). -/
def union (f : ℕ) (S : St P) (a b : ℕ) : Option (St P) :=
  (find f S a).bind fun x => (find f x.2 b).map fun y =>
    if x.1 = y.1 then y.2
    else if (y.2.ops x.1).length < (y.2.ops y.1).length then merge y.2 y.1 x.1
    else merge y.2 x.1 y.1

mutual
/-- The only operation inside, if there is just one. -/
def singleOp : Op P → Option (Op P)
  | .compound l _ => single l
  | .std s => some (.std s)
  | .measure qs cs => some (.measure qs cs)
  | .reset qs => some (.reset qs)
  | .classic p o => some (.classic p o)
/-- `isConvertibleToSingleOperation` and `collapseToSingleOperation`. -/
def single : List (Op P) → Option (Op P)
  | [] => none
  | [o] => singleOp o
  | _ :: _ :: _ => none
end

/-- What a block becomes (1403-1407). -/
def close (l : List (Op P)) : Op P := (single l).getD (.compound l false)

/-- The loop over the qubits of a finalised block (1410-1416). -/
def release (S : St P) : List ℕ → St P
  | [] => S
  | i :: l => release { S with parent := update S.parent i i, bits := update S.bits i [i], cur := update S.cur i none,
                               ops := update S.ops i [] } l

/-- `finalizeBlock` (1397-1417). -/
def finalize (f : ℕ) (S : St P) (q : ℕ) : Option (St P) :=
  (find f S q).map fun x =>
    match x.2.cur x.1 with
    | none => x.2
    | some i => release { x.2 with slots := x.2.slots.set i (some (close (x.2.ops x.1))) } (x.2.bits x.1)

/-- `finalizeBlock` for several qubits. -/
def finalizeAll (f : ℕ) (S : St P) : List ℕ → Option (St P)
  | [] => some S
  | q :: l => (finalize f S q).bind fun S => finalizeAll f S l

/-- The blocks of the qubits, without repetitions (1447-1450). -/
def roots (f : ℕ) : St P → List ℕ → List ℕ → Option (List ℕ × St P)
  | S, [], acc => some (acc, S)
  | S, q :: l, acc => (find f S q).bind fun x => roots f x.2 l (if x.1 ∈ acc then acc else acc ++ [x.1])

/-- The number of qubits in blocks (1451-1454). -/
def total (S : St P) (l : List ℕ) : ℕ := (l.map fun r => (S.bits r).length).sum

/-- The non-empty blocks of the qubits and their sizes (1471-1479). -/
def occupied (f : ℕ) : St P → List ℕ → List (ℕ × ℕ) → Option (List (ℕ × ℕ) × St P)
  | S, [], acc => some (acc, S)
  | S, q :: l, acc => (find f S q).bind fun x => (find f x.2 x.1).bind fun y =>
    occupied f y.2 l (if y.2.cur y.1 = none ∨ x.1 ∈ acc.map Prod.fst then acc else acc ++ [(x.1, (y.2.bits x.1).length)])

/-- Fill up a block (1495-1505): its size, the blocks that are left and the new state. -/
def pack (f max b : ℕ) : ℕ → List (ℕ × ℕ) → St P → Option (List (ℕ × ℕ) × St P)
  | _, [], S => some ([], S)
  | size, (c, k) :: l, S =>
    if size < max then
      if size + k ≤ max then (union f S b c).bind fun S => pack f max b (size + k) l S
      else (pack f max b size l S).map fun r => ((c, k) :: r.1, r.2)
    else some ((c, k) :: l, S)

theorem pack_length (f max b : ℕ) (l : List (ℕ × ℕ)) : ∀ (size : ℕ) (S : St P) r, pack f max b size l S = some r →
    r.1.length ≤ l.length := by
  induction l with
  | nil => intro size S r h; simp [pack] at h; subst h; simp
  | cons x l ih =>
    intro size S r h
    obtain ⟨c, k⟩ := x
    rw [pack] at h
    split_ifs at h
    · cases hu : union f S b c with
      | none => rw [hu] at h; simp at h
      | some S' =>
        rw [hu] at h
        have := ih _ _ _ h
        simp; omega
    · cases hp : pack f max b size l S with
      | none => rw [hp] at h; simp at h
      | some r' =>
        rw [hp] at h
        simp at h
        subst h
        have := ih _ _ _ hp
        simpa using this
    · simp at h; subst h; simp

/-- The loop over the sorted blocks (1486-1507). -/
def packAll (f max : ℕ) : St P → List (ℕ × ℕ) → Option (St P)
  | S, [] => some S
  | S, (b, size) :: l =>
    if size = max then (finalize f S b).bind fun S => packAll f max S l
    else match _h : pack f max b size l S with
      | none => none
      | some r => (finalize f r.2 b).bind fun S => packAll f max S r.1
termination_by _ l => l.length
decreasing_by
  · simp
  · have := pack_length f max b l size _ r _h; simp; omega

/-- The savings of the blocks (1511-1521); the second component is the sum of the sizes. -/
def savings (f : ℕ) : St P → List ℕ → List (ℕ × ℕ) → ℕ → Option ((List (ℕ × ℕ) × ℕ) × St P)
  | S, [], acc, t => some ((acc, t), S)
  | S, q :: l, acc, t => (find f S q).bind fun x =>
    if x.1 ∈ acc.map Prod.fst then
      savings f x.2 l (acc.map fun e => if e.1 = x.1 then (e.1, e.2 - 1) else e) t
    else savings f x.2 l (acc ++ [(x.1, (x.2.bits x.1).length - 1)]) (t + (x.2.bits x.1).length)

/-- Finalise blocks until enough space has been saved (1528-1534). -/
def save (f : ℕ) : St P → ℤ → List (ℕ × ℕ) → Option (St P)
  | S, _, [] => some S
  | S, need, (b, s) :: l =>
    if 0 < need then (finalize f S b).bind fun S => save f S (need - s) l
    else save f S need l

/-- The block for qubits: neighbours are joined (1542-1548). -/
def join (f : ℕ) : St P → Option ℕ → List ℕ → Option (Option ℕ × St P)
  | S, prev, [] => some (prev, S)
  | S, none, q :: l => join f S (some q) l
  | S, some p, q :: l => (union f S p q).bind fun S => join f S (some q) l

/-- `static_cast<Qubit>(-1)`. -/
def noQubit : ℕ := 4294967295

/-- Put an operation into the block of its qubits (1542-1562). -/
def insert (f : ℕ) (S : St P) (o : Op P) (used : List ℕ) : Option (St P) :=
  (join f S none used).bind fun x => (find f x.2 (x.1.getD noQubit)).map fun y =>
    match y.2.cur y.1 with
    | none => { y.2 with cur := update y.2.cur y.1 (some y.2.slots.length), ops := update y.2.ops y.1 (y.2.ops y.1 ++ [o]),
                         slots := y.2.slots ++ [none] }
    | some _ => { y.2 with ops := update y.2.ops y.1 (y.2.ops y.1 ++ [o]) }

/-- `isUnitary()`. -/
def isUnitary : Op P → Bool
  | .std _ => true
  | .compound _ _ => true
  | _ => false

/-- The qubits in a `std::set`. -/
def sorted (s : Finset ℕ) : List ℕ := (List.range (s.sup id + 1)).filter (· ∈ s)

/-- How to traverse: the entries of an unordered map after `std::sort`. -/
abbrev Sorter := List (ℕ × ℕ) → List (ℕ × ℕ)

/-- Make room for an operation (1465-1536). -/
def makeRoom (f max : ℕ) (srt : Sorter) (S : St P) (used : List ℕ) : Option (St P) :=
  if max < used.length then
    (occupied f S used []).bind fun x => packAll f max x.2 (srt x.1)
  else
    (savings f S used [] 0).bind fun x => save f x.2 (x.1.2 - max : ℤ) (srt x.1.1)

/-- One round of the loop over the circuit (1432-1564). -/
def step (f max : ℕ) (srt : Sorter) (S : St P) (o : Op P) : Option (St P) :=
  let used := sorted o.usedQ
  if isUnitary o then
    (roots f S used []).bind fun x =>
      (if max < total x.2 x.1 then makeRoom f max srt x.2 used else some x.2).bind fun S =>
        if max < used.length then some { S with slots := S.slots ++ [some o] }
        else insert f S o used
  else (finalizeAll f S used).map fun S => { S with slots := S.slots ++ [some o] }

/-- The loop over the circuit. -/
def loop (f max : ℕ) (srt : Sorter) : St P → List (Op P) → Option (St P)
  | S, [] => some S
  | S, o :: l => (step f max srt S o).bind fun S => loop f max srt S l

/-- The last loop (1566-1571): `keys` are the keys of `parent`. -/
def finish (f : ℕ) : St P → List ℕ → Option (St P)
  | S, [] => some S
  | S, q :: l => if S.parent q = q then (finalize f S q).bind fun S => finish f S l else finish f S l

/-- The operations in the slots; a null pointer is dereferenced by `removeIdentities`. -/
def unslot : List (Option (Op P)) → Option (List (Op P))
  | [] => some []
  | none :: _ => none
  | some o :: l => (unslot l).map fun r => o :: r

/-- `collectBlocks`; the second component is `stale`. -/
def collectBlocks (f max : ℕ) (srt : Sorter) (keys : List ℕ) (ops : List (Op P)) : Option (List (Op P) × Bool) :=
  if ops.length ≤ 1 then some (ops, false)
  else (loop f max srt {} ops).bind fun S => (finish f S keys).bind fun S =>
    (unslot S.slots).map fun l => (removeIdentities l, S.stale)

end MQT.Opt.Blocks
