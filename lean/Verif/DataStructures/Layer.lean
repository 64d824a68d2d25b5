/-
Layers of executable operations.

Models `Layer` and `Layer::DAGVertex` (`include/mqt-core/datastructures/Layer.hpp` 35-134, `src/datastructures/Layer.cpp`
26-179). Vertices are numbered in the order of their creation, which is the order of the operations in the circuit; shared
pointers are these numbers. What the construction asks about operations (used qubits, `commutesAtQubit`, `isInverseOf`,
equality) is passed in as tables; `Verif.DataStructures.LayerCircuit` fills them in for circuits.

Simplified: counters are unbounded integers; the assertion in `isExecutable` is ignored.
-/
import Mathlib.Data.Finset.Basic
import Mathlib.Data.Int.Basic
import Mathlib.Logic.Function.Basic
import Verif.Common.Res

set_option autoImplicit false

namespace MQT.Layer

open Function (update)

/-! ### Vertices -/

/-- The members of all vertices, and the set of executable vertices. -/
structure Graph where
  n : ℕ
  thr : ℕ → ℤ
  cnt : ℕ → ℤ
  en : ℕ → List ℕ
  dis : ℕ → List ℕ
  done : ℕ → Bool
  exec : Finset ℕ

/-- No vertices. -/
def Graph.empty : Graph := ⟨0, fun _ => 0, fun _ => 0, fun _ => [], fun _ => [], fun _ => false, ∅⟩

/-- `isExecutable` (Layer.hpp 72-75). -/
def Graph.isExecutable (g : Graph) (v : ℕ) : Bool := !g.done v && g.cnt v == g.thr v

/-- `updateExecutableSet` (Layer.hpp 94-106). -/
def Graph.updateSet (g : Graph) (v : ℕ) : Graph :=
  if g.isExecutable v then { g with exec := insert v g.exec } else { g with exec := g.exec.erase v }

/-- `create` (Layer.hpp 65-71). -/
def Graph.create (g : Graph) : Graph :=
  Graph.updateSet { g with
    n := g.n + 1
    thr := update g.thr g.n 0
    cnt := update g.cnt g.n 0
    en := update g.en g.n []
    dis := update g.dis g.n []
    done := update g.done g.n false } g.n

/-- `u->addEnabledSuccessor(v)` (Layer.hpp 124-128). -/
def Graph.addEnabled (u v : ℕ) (g : Graph) : Graph :=
  Graph.updateSet { g with en := update g.en u (g.en u ++ [v]), thr := update g.thr v (g.thr v + 1) } v

/-- `u->addDisabledSuccessor(v)` (Layer.hpp 129-133). -/
def Graph.addDisabled (u v : ℕ) (g : Graph) : Graph :=
  Graph.updateSet { g with dis := update g.dis u (g.dis u ++ [v]), thr := update g.thr v (g.thr v - 1) } v

/-- `incExecutableCounter` (Layer.hpp 82-85). -/
def Graph.inc (g : Graph) (v : ℕ) : Graph := Graph.updateSet { g with cnt := update g.cnt v (g.cnt v + 1) } v

/-- `decExecutableCounter` (Layer.hpp 86-89). -/
def Graph.dec (g : Graph) (v : ℕ) : Graph := Graph.updateSet { g with cnt := update g.cnt v (g.cnt v - 1) } v

/-- `execute` (Layer.hpp 109-123). -/
def Graph.execute (g : Graph) (v : ℕ) : MQT.Res Graph :=
  if g.isExecutable v then
    .ok (Graph.updateSet ((g.en v).foldl Graph.inc ((g.dis v).foldl Graph.dec { g with done := update g.done v true })) v)
  else .throw

/-! ### Construction -/

/-- What the construction needs to know about the operations. `inv` is `none` when inverting the second operation throws. -/
structure Tables where
  used : ℕ → List ℕ
  comm : ℕ → ℕ → ℕ → Bool
  inv : ℕ → ℕ → Option Bool
  eq : ℕ → ℕ → Bool

/-- The local variables of `constructDAG` for one qubit (Layer.cpp 28-49). -/
structure QState where
  constructive : List ℕ := []
  destructive : List ℕ := []
  group : List ℕ := []
  look : Option ℕ := none
  pred : List ℕ := []
  qops : List ℕ := []

/-- The part of the loop body for operations that are not cancelled (Layer.cpp 103-140); `dup` is false for the remaining
lookahead at the end (Layer.cpp 149-176), where equal operations are not looked for. -/
def place (T : Tables) (commutable dup : Bool) (q cur : ℕ) (g : Graph) (s : QState) : Graph × QState :=
  let g := s.constructive.foldl (fun g c => g.addEnabled c cur) g
  let g := s.destructive.foldl (fun g d => g.addDisabled d cur) g
  let fresh := match s.group with
    | [] => false
    | g0 :: _ => !commutable || !T.comm g0 cur q || (dup && s.group.any fun v => T.eq v cur)
  let pred := if fresh then s.group else s.pred
  let group := if fresh then [] else s.group
  let g := pred.foldl (fun g p => g.addEnabled p cur) g
  (g, { s with pred := pred, group := group ++ [cur], qops := s.qops ++ [cur] })

/-- The part of the loop body for an operation `cur` and its inverse `look` (Layer.cpp 78-102). -/
def cancel (cur look : ℕ) (g : Graph) (s : QState) : Graph × QState :=
  let g := s.qops.foldl (fun g o => g.addEnabled look o) g
  let g := s.destructive.foldl (fun g o => g.addEnabled look o) g
  let g := s.qops.foldl (fun g o => g.addDisabled cur o) g
  let g := s.destructive.foldl (fun g o => g.addDisabled cur o) g
  let g := g.addEnabled cur look
  (g, { s with constructive := s.constructive ++ [look], destructive := s.destructive ++ [cur], look := none })

/-- Is the pair of `cur` and `v` cancelled, given that they are inverse? (Layer.cpp 75-77) -/
def cancels (T : Tables) (q cur : ℕ) (s : QState) : Bool :=
  match s.group with
  | [] => true
  | g0 :: _ => !T.comm g0 cur q

/-- The body of the loop over the qubits of an operation (Layer.cpp 55-142). -/
def visit (T : Tables) (nq : ℕ) (commutable : Bool) (v : ℕ) (st : Graph × (ℕ → QState)) (q : ℕ) :
    MQT.Res (Graph × (ℕ → QState)) :=
  if nq ≤ q then .ub
  else
    match (st.2 q).look with
    | none => .ok (st.1, update st.2 q { st.2 q with look := some v })
    | some cur =>
      match T.inv cur v with
      | none => .throw
      | some b =>
        let r := if b && cancels T q cur (st.2 q) then cancel cur v st.1 (st.2 q)
          else place T commutable true q cur st.1 { st.2 q with look := some v }
        .ok (r.1, update st.2 q r.2)

/-- A loop whose body may fail. -/
def loop {α σ : Type} (f : σ → α → MQT.Res σ) : List α → σ → MQT.Res σ
  | [], s => .ok s
  | a :: l, s => (f s a).bind (loop f l)

/-- One operation of the circuit (Layer.cpp 51-143). -/
def addOp (T : Tables) (nq : ℕ) (commutable : Bool) (st : Graph × (ℕ → QState)) (v : ℕ) : MQT.Res (Graph × (ℕ → QState)) :=
  loop (visit T nq commutable v) (T.used v) (st.1.create, st.2)

/-- The remaining lookahead of a qubit (Layer.cpp 145-178). -/
def flush (T : Tables) (commutable : Bool) (st : Graph × (ℕ → QState)) (q : ℕ) : Graph × (ℕ → QState) :=
  match (st.2 q).look with
  | none => st
  | some cur =>
    let r := place T commutable false q cur st.1 { st.2 q with look := none }
    (r.1, update st.2 q r.2)

/-- `constructDAG` (Layer.cpp 26-179) for a circuit of `m` operations on `nq` qubits. -/
def construct (T : Tables) (nq m : ℕ) (commutable : Bool) : MQT.Res Graph :=
  (loop (addOp T nq commutable) (List.range m) (Graph.empty, fun _ => {})).bind fun st =>
    .ok ((List.range nq).foldl (flush T commutable) st).1

/-- Executing vertices one after another. -/
def executeAll (g : Graph) (l : List ℕ) : MQT.Res Graph := loop Graph.execute l g

end MQT.Layer
