/-
Simulation and functionality of circuits with garbage qubits.

Source in /repo: src/dd/Simulation.cpp 213-244 (`simulate`), src/dd/FunctionalityConstruction.cpp 22-48
(`buildFunctionality`), 116-142 (`buildFunctionalityRecursive`): the steps after those of `Verif.Sim.Simulate` and
`Verif.Sim.Functionality`.
-/
import Verif.Sim.Functionality
import Verif.DD.Garbage

set_option autoImplicit false

noncomputable section

open Classical

namespace MQT.Sim

open MQT.IR MQT.DD MQT.Opt

/-- The result of a reduction, undefined behaviour included. -/
def ofOption {α : Type} : Option α → Res α
  | some a => .ok a
  | none => .ub

/-- `simulate`: the global phase is added after the reduction. -/
def simulateG (n : ℕ) (ops : List (Op ℝ)) (init out : Perm) (gphase : ℝ) (gar : List Bool) (e : VEdge) : Res VEdge :=
  (simulate n ops init out 0 e).bind fun r => (ofOption (reduceGarbageV r gar false)).bind fun r =>
    .ok (if |gphase| > 0 then ⟨r.p, r.w * ⟨Real.cos gphase, Real.sin gphase⟩⟩ else r)

/-- `buildFunctionality`. -/
def buildFunctionalityG (n : ℕ) (ops : List (Op ℝ)) (init out : Perm) (anc gar : List Bool) : Res MEdge :=
  if n = 0 then .ok .one
  else (buildFunctionality n ops init out anc).bind fun e => ofOption (reduceGarbageM e gar true false)

/-- `buildFunctionalityRecursive`. -/
def buildFunctionalityRecursiveG (n : ℕ) (ops : List (Op ℝ)) (init out : Perm) (anc gar : List Bool) : Res MEdge :=
  if n = 0 then .ok .one
  else if ops.length = 1 then buildFunctionalityRecursive n ops init out anc
  else (buildFunctionalityRecursive n ops init out anc).bind fun e => ofOption (reduceGarbageM e gar true false)

end MQT.Sim
