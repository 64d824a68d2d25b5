/-
Model of the operation-type enumeration.

Sources (mqt-core, pinned commit):
* `include/mqt-core/ir/operations/OpType.inc` lines 11-66 — the table of types, flags and names;
* `include/mqt-core/ir/operations/OpType.hpp` lines 20-38 — numeric encoding
  `id = (N << 2) | flags`, lines 46-70 `isTwoQubitGate`, 72-97 `isSingleQubitGate`;
* `src/ir/operations/OpType.cpp` lines 19-33 `toString`, 65-152 `opTypeFromString`;
* `include/mqt-core/ir/operations/Operation.hpp` `isDiagonalGate` (bit test on the type);
* `src/dd/Operations.cpp` line 91: `type ^ OpTypeInv`.

The model keeps the numeric codes: the diagonal test and the inversion are the bit operations
of the code, not a separate table.
-/
set_option autoImplicit false

namespace MQT.IR

/-- `enum OpType` (OpType.hpp 28-38 / OpType.inc). -/
inductive OpType
  | none | gphase | i | barrier | h | x | y | z | s | sdg | t | tdg | v | vdg | u | u2 | p
  | sx | sxdg | rx | ry | rz | swap | iswap | iswapdg | peres | peresdg | dcx | ecr
  | rxx | ryy | rzz | rzx | xxminusyy | xxplusyy | compound | measure | reset
  | classicControlled | atrue | afalse | multiatrue | multiafalse
  | move | aodActivate | aodDeactivate | aodMove
  deriving DecidableEq, Repr

namespace OpType

/-- `OpTypeInv = 0b01` (OpType.hpp 22). -/
def flagInv : Nat := 1
/-- `OpTypeDiag = 0b10` (OpType.hpp 23). -/
def flagDiag : Nat := 2

/-- One `HANDLE_OP_TYPE(N, id, flags, repr)` row of OpType.inc: `(N, flags, repr)`. -/
def row : OpType → Nat × Nat × String
  | none => (0, 0, "none")
  | gphase => (1, 0, "gphase")
  | i => (2, flagDiag, "i")
  | barrier => (3, flagDiag, "barrier")
  | h => (4, 0, "h")
  | x => (5, 0, "x")
  | y => (6, 0, "y")
  | z => (7, flagDiag, "z")
  | s => (8, flagDiag, "s")
  | sdg => (8, flagDiag ||| flagInv, "sdg")
  | t => (9, flagDiag, "t")
  | tdg => (9, flagDiag ||| flagInv, "tdg")
  | v => (10, 0, "v")
  | vdg => (10, flagInv, "vdg")
  | u => (11, 0, "u")
  | u2 => (12, 0, "u2")
  | p => (13, flagDiag, "p")
  | sx => (14, 0, "sx")
  | sxdg => (14, flagInv, "sxdg")
  | rx => (15, 0, "rx")
  | ry => (16, 0, "ry")
  | rz => (17, flagDiag, "rz")
  | swap => (18, 0, "swap")
  | iswap => (19, 0, "iswap")
  | iswapdg => (19, flagInv, "iswapdg")
  | peres => (20, 0, "peres")
  | peresdg => (20, flagInv, "peresdg")
  | dcx => (21, 0, "dcx")
  | ecr => (22, 0, "ecr")
  | rxx => (23, 0, "rxx")
  | ryy => (24, 0, "ryy")
  | rzz => (25, flagDiag, "rzz")
  | rzx => (26, 0, "rzx")
  | xxminusyy => (27, 0, "xx_minus_yy")
  | xxplusyy => (28, 0, "xx_plus_yy")
  | compound => (29, 0, "compound")
  | measure => (30, 0, "measure")
  | reset => (31, 0, "reset")
  | classicControlled => (32, 0, "classic_controlled")
  | atrue => (33, 0, "a_true")
  | afalse => (34, 0, "a_false")
  | multiatrue => (35, 0, "multi_a_true")
  | multiafalse => (36, 0, "multi_a_false")
  | move => (37, 0, "move")
  | aodActivate => (38, 0, "aod_activate")
  | aodDeactivate => (39, 0, "aod_deactivate")
  | aodMove => (40, 0, "aod_move")

/-- Every enumerator, in the order of OpType.inc. -/
def all : List OpType :=
  [none, gphase, i, barrier, h, x, y, z, s, sdg, t, tdg, v, vdg, u, u2, p,
   sx, sxdg, rx, ry, rz, swap, iswap, iswapdg, peres, peresdg, dcx, ecr,
   rxx, ryy, rzz, rzx, xxminusyy, xxplusyy, compound, measure, reset,
   classicControlled, atrue, afalse, multiatrue, multiafalse,
   move, aodActivate, aodDeactivate, aodMove]

/-- The enumerator's numeric value `((N) << 2) | flags` (OpType.hpp 29-30). -/
def code (ty : OpType) : Nat := (ty.row.1 <<< 2) ||| ty.row.2.1

/-- `static_cast<OpType>(n)`: the enumerator with that value, if there is one.  (C++ would
produce an unnamed value; the model returns `none`.) -/
def ofCode (n : Nat) : Option OpType := all.find? fun ty => ty.code == n

/-- `toString` (OpType.cpp 19-33).  Every enumerator is in the table, so it never throws. -/
def toStr (ty : OpType) : String := ty.row.2.2

/-- `OP_NAME_TO_TYPE` (OpType.cpp 66-142). -/
def nameTable : List (String × OpType) :=
  [("none", none), ("gphase", gphase), ("i", i), ("id", i), ("h", h), ("ch", h),
   ("x", x), ("cnot", x), ("cx", x), ("mcx", x), ("y", y), ("cy", y), ("z", z), ("cz", z),
   ("s", s), ("cs", s), ("sdg", sdg), ("csdg", sdg), ("t", t), ("ct", t), ("tdg", tdg),
   ("ctdg", tdg), ("v", v), ("vdg", vdg), ("u", u), ("cu", u), ("u3", u), ("cu3", u),
   ("u2", u2), ("cu2", u2), ("p", p), ("cp", p), ("mcp", p), ("phase", p), ("cphase", p),
   ("mcphase", p), ("u1", p), ("cu1", p), ("sx", sx), ("csx", sx), ("sxdg", sxdg),
   ("csxdg", sxdg), ("rx", rx), ("crx", rx), ("ry", ry), ("cry", ry), ("rz", rz),
   ("crz", rz), ("swap", swap), ("cswap", swap), ("iswap", iswap), ("iswapdg", iswapdg),
   ("peres", peres), ("peresdg", peresdg), ("dcx", dcx), ("ecr", ecr), ("rxx", rxx),
   ("ryy", ryy), ("rzz", rzz), ("rzx", rzx), ("xx_minus_yy", xxminusyy),
   ("xx_plus_yy", xxplusyy), ("measure", measure), ("reset", reset), ("barrier", barrier),
   ("classic_controlled", classicControlled), ("compound", compound), ("move", move),
   ("aod_activate", aodActivate), ("aod_deactivate", aodDeactivate), ("aod_move", aodMove)]

/-- `opTypeFromString` (OpType.cpp 65-152); `none` = `throw std::invalid_argument`. -/
def fromStr (nm : String) : Option OpType := nameTable.lookup nm

/-- `Operation::isDiagonalGate`: `(+type & OpTypeDiag) != 0`. -/
def isDiagonal (ty : OpType) : Bool := (ty.code &&& flagDiag) != 0

/-- `static_cast<OpType>(+type ^ OpTypeInv)` (dd/Operations.cpp 91). -/
def flipInv (ty : OpType) : Option OpType := ofCode (ty.code ^^^ flagInv)

/-- `isTwoQubitGate` (OpType.hpp 46-66). -/
def isTwoQubitGate : OpType → Bool
  | swap | iswap | iswapdg | peres | peresdg | dcx | ecr | rxx | ryy | rzz | rzx
  | xxminusyy | xxplusyy => true
  | _ => false

/-- `isSingleQubitGate` (OpType.hpp 68-93). -/
def isSingleQubitGate : OpType → Bool
  | i | u | u2 | p | x | y | z | h | s | sdg | t | sx | sxdg | tdg | v | vdg | rx | ry | rz =>
    true
  | _ => false

theorem mem_all (ty : OpType) : ty ∈ all := by cases ty <;> decide

end OpType
end MQT.IR
