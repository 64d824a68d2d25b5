/-
The rewrite rules (`src/zx/Rules.cpp`) and the loops applying them (`include/mqt-core/zx/Simplify.hpp`).

The checks are propositions.  On existing vertices of a diagram with right bookkeeping they only look at existing
vertices; on others they are undefined behaviour in the code.

A loop over the edges of a vertex is undefined behaviour (`none`) if the list of these edges changes meanwhile.
-/
import Verif.ZX.Diagram

set_option autoImplicit false

noncomputable section

open Classical

open Function (update)

namespace MQT.ZX.Diagram

/-- `setPhase` (ZXDiagram.hpp 324-329). -/
def setPhase (D : Diagram) (v : ℕ) (p : Phase) : Option Diagram :=
  if v < D.size then
    match D.vert v with
    | some d => some { D with vert := update D.vert v (some { d with phase := p }) }
    | none => some D
  else none

/-- `addGlobalPhase` (ZXDiagram.cpp 387-389). -/
def addGlobalPhase (D : Diagram) (p : Phase) : Diagram := { D with globalPhase := D.globalPhase.add p }

/-- `for (const auto& edge : diag.incidentEdges(v)) body(edge)`, from the edges `l` on. -/
def forEdges (v : ℕ) (body : Edge → Diagram → Option Diagram) : List Edge → Diagram → Option Diagram
  | [], D => some D
  | e :: r, D => do
    let D1 ← body e D
    if D1.adj v = D.adj v then forEdges v body r D1 else none

/-! ### Identity removal -/

/-- Rules.cpp 86-89. -/
def checkIdSimp (D : Diagram) (v : ℕ) : Prop :=
  (D.adj v).length = 2 ∧ (∃ p, D.phase v = some p ∧ p.isZero) ∧ ∃ t, D.type v = some t ∧ t ≠ .boundary

/-- Rules.cpp 91-102. -/
def removeId (D : Diagram) (v : ℕ) : Option Diagram :=
  if v < D.size then
    match D.adj v with
    | e0 :: e1 :: _ => do
      let D1 ← D.addEdgeParallelAware e0.tgt e1.tgt (if e0.type ≠ e1.type then .hadamard else .simple)
      D1.removeVertex v
    | _ => none
  else none

/-! ### Spider fusion -/

/-- Rules.cpp 104-111. -/
def checkSpiderFusion (D : Diagram) (v0 v1 : ℕ) : Prop :=
  v0 ≠ v1 ∧ D.type v0 = D.type v1 ∧ (findEdge (D.adj v0) v1).map Edge.type = some .simple ∧ D.type v0 ≠ some .boundary

/-- Rules.cpp 113-121. -/
def fuseSpiders (D : Diagram) (v0 v1 : ℕ) : Option Diagram := do
  let p ← D.phase v1
  let D1 ← D.addPhase v0 p
  let D2 ← forEdges v1 (fun e D => if v0 ≠ e.tgt then D.addEdgeParallelAware v0 e.tgt e.type else some D) (D1.adj v1) D1
  D2.removeVertex v1

/-! ### Local complementation -/

/-- Rules.cpp 123-135. -/
def checkLocalComp (D : Diagram) (v : ℕ) : Prop :=
  D.type v = some .z ∧ (∃ p, D.phase v = some p ∧ p.isProperClifford) ∧
    ∀ e ∈ D.adj v, e.type = .hadamard ∧ D.type e.tgt = some .z

/-- The loops of `localComp` (Rules.cpp 142-149). -/
def complementLoop (v : ℕ) (p : Phase) : List Edge → Diagram → Option Diagram
  | [], D => some D
  | e :: r, D => do
    let D1 ← D.addPhase e.tgt p
    let D2 ← forEdges v (fun e' D => D.addEdgeParallelAware e.tgt e'.tgt .hadamard) r D1
    if D2.adj v = D.adj v then complementLoop v p r D2 else none

/-- Rules.cpp 137-153. -/
def localComp (D : Diagram) (v : ℕ) : Option Diagram := do
  let p ← D.phase v
  let D1 ← complementLoop v p.neg (D.adj v) D
  let p' ← D1.phase v
  (D1.addGlobalPhase (Phase.ofRat (p'.const.frac.num / 4))).removeVertex v

/-! ### Pivoting -/

def isPauli (D : Diagram) (v : ℕ) : Prop := ∃ p, D.phase v = some p ∧ p.isPauli

/-- Rules.cpp 155-182.  The code uses the data of `v0` for the type of `v1` as well. -/
def checkPivotPauli (D : Diagram) (v0 v1 : ℕ) : Prop :=
  D.type v0 = some .z ∧ D.isPauli v0 ∧ D.isPauli v1 ∧
  (findEdge (D.adj v0) v1).map Edge.type = some .hadamard ∧
  (∀ e ∈ D.adj v0, D.type e.tgt = some .z ∧ e.type = .hadamard) ∧
  ∀ e ∈ D.adj v1, D.type e.tgt = some .z ∧ e.type = .hadamard

/-- Rules.cpp 184-218. -/
def pivotPauli (D : Diagram) (v0 v1 : ℕ) : Option Diagram := do
  let p0 ← D.phase v0
  let p1 ← D.phase v1
  let D0 := if ¬ p0.isZero ∧ ¬ p1.isZero then D.addGlobalPhase (Phase.ofRat 1) else D
  let D1 ← forEdges v0 (fun e D =>
    if e.tgt = v1 then some D
    else do
      let D' ← D.addPhase e.tgt p1
      forEdges v1 (fun e' D => if e'.tgt ≠ v0 then D.addEdgeParallelAware e.tgt e'.tgt .hadamard else some D)
        (D'.adj v1) D') (D0.adj v0) D0
  let D2 ← forEdges v1 (fun e D => D.addPhase e.tgt p0) (D1.adj v1) D1
  let D3 ← D2.removeVertex v0
  D3.removeVertex v1

/-- Rules.cpp 29-34. -/
def isInterior (D : Diagram) (v : ℕ) : Prop := ∀ e ∈ D.adj v, 1 < (D.adj e.tgt).length ∧ D.type e.tgt = some .z

/-- Rules.cpp 36-46. -/
def extractGadget (D : Diagram) (v : ℕ) : Option Diagram :=
  if v < D.size then
    match D.vert v with
    | none => some D
    | some d => do
      let (D1, ph) := D.addVertex ⟨d.qubit, d.phase, .z⟩
      let (D2, id) := D1.addVertex ⟨d.qubit, Phase.zero, .z⟩
      let D3 ← D2.setPhase v Phase.zero
      let D4 ← D3.addEdge v id .hadamard
      D4.addEdge id ph .hadamard
  else none

/-- Rules.cpp 48-54. -/
def extractPauliGadget (D : Diagram) (v : ℕ) : Option Diagram := do
  let p ← D.phase v
  if p.isPauli then some D else D.extractGadget v

/-- The loop of `ensureInterior` (Rules.cpp 63-78), over a copy of the edges. -/
def interiorLoop (v : ℕ) (q : ℤ) : List Edge → Diagram → Option Diagram
  | [], D => some D
  | e :: r, D => do
    let t ← D.type e.tgt
    if t = .boundary then do
      let (D1, n) := D.addVertex ⟨q, Phase.zero, .z⟩
      let D2 ← D1.addEdge v n .hadamard
      let D3 ← D2.addEdge e.tgt n (if e.type = .simple then .hadamard else .simple)
      let D4 ← D3.removeEdge v e.tgt
      interiorLoop v q r D4
    else interiorLoop v q r D

/-- Rules.cpp 56-79. -/
def ensureInterior (D : Diagram) (v : ℕ) : Option Diagram :=
  if v < D.size then
    match D.vert v with
    | none => some D
    | some d => interiorLoop v d.qubit (D.adj v) D
  else none

/-- Rules.cpp 81-84. -/
def ensurePauliVertex (D : Diagram) (v : ℕ) : Option Diagram := do
  let D1 ← D.extractPauliGadget v
  D1.ensureInterior v

/-- Rules.cpp 220-254. -/
def checkPivot (D : Diagram) (v0 v1 : ℕ) : Prop :=
  v0 ≠ v1 ∧ D.type v0 = some .z ∧ D.type v1 = some .z ∧
  (findEdge (D.adj v0) v1).map Edge.type = some .hadamard ∧
  (∀ e ∈ D.adj v0, ¬ ((D.type e.tgt ≠ some .z ∨ e.type ≠ .hadamard) ∧ D.type e.tgt ≠ some .boundary)) ∧
  (∀ e ∈ D.adj v1, ¬ ((D.type e.tgt ≠ some .z ∨ e.type ≠ .hadamard) ∧ D.type e.tgt ≠ some .boundary)) ∧
  ((D.isInterior v0 ∧ D.isPauli v0) ∨ (D.isInterior v1 ∧ D.isPauli v1))

/-- Rules.cpp 256-261. -/
def pivot (D : Diagram) (v0 v1 : ℕ) : Option Diagram := do
  let D1 ← D.ensurePauliVertex v0
  let D2 ← D1.ensurePauliVertex v1
  D2.pivotPauli v0 v1

/-- Rules.cpp 263-278. -/
def checkPivotGadget (D : Diagram) (v0 v1 : ℕ) : Prop :=
  (D.isPauli v0 ↔ ¬ D.isPauli v1) ∧ D.isInterior v0 ∧ D.isInterior v1 ∧ D.checkPivot v0 v1

/-- Rules.cpp 280-287. -/
def pivotGadget (D : Diagram) (v0 v1 : ℕ) : Option Diagram := do
  let p ← D.phase v0
  let D1 ← if p.isPauli then D.extractGadget v1 else D.extractGadget v0
  D1.pivotPauli v0 v1

end MQT.ZX.Diagram
