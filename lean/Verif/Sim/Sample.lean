/-
Sampling measurement outcomes of a circuit.

Sources in /repo: src/dd/Simulation.cpp 34-211 (`sample`); src/dd/Operations.cpp 200-204
(`applyUnitaryOperation`), 212-225 (`applyMeasurement`), 227-241 (`applyReset`), 243-292
(`applyClassicControlledOperation`); src/dd/Package.cpp 625-666 (`measureAll` without collapse).

Simplifications: weights are exact and random numbers are real numbers drawn uniformly from
`[0, 1]` (programs that draw are `Rand` programs); the condition of a classically controlled
operation is a predicate on the classical memory (its evaluation is modelled in
`Verif/IR/ClassicControlled.lean`); there are no garbage qubits, so `reduceGarbage` does nothing;
seeding and reference counting are not modelled.  A string is the list of its characters
(`'1'` is `true`), first character first, so bit 0 is last.
-/
import Verif.Sim.Norm
import Verif.DD.Measure

set_option autoImplicit false

noncomputable section

open Classical
open Function (update)
open Complex (normSq)

namespace MQT.Sim

open MQT.IR MQT.DD MQT.Opt

/-! ### Programs that draw and can fail -/

/-- Sequencing of programs that draw and can fail. -/
def bindR {α β : Type} (p : Rand (Res α)) (k : α → Rand (Res β)) : Rand (Res β) :=
  p.bind fun r =>
    match r with
    | .ok a => k a
    | .throw => .done .throw
    | .ub => .done .ub

/-- A step that does not draw. -/
def liftR {α : Type} (r : Res α) : Rand (Res α) := .done r

/-! ### The circuit -/

/-- The parts of a `QuantumComputation` that `sample` reads. -/
structure Qc where
  n : ℕ
  ncb : ℕ
  /-- `getClassicalRegisters().empty()` -/
  noCregs : Bool
  ops : List (Op ℝ)
  init : Perm
  out : Perm

/-- `isUnitary()`: true for standard and compound operations. -/
def isUni : Op ℝ → Bool
  | .std _ => true
  | .compound _ _ => true
  | _ => false

/-- `map[k] = v` in a `std::map`. -/
def mapSet : Perm → ℕ → ℕ → Perm
  | [], k, v => [(k, v)]
  | (k', v') :: l, k, v =>
    if k < k' then (k, v) :: (k', v') :: l
    else if k = k' then (k, v) :: l
    else (k', v') :: mapSet l k v

/-- The loop that records a measurement (Simulation.cpp 75-77). -/
def record : List ℕ → List ℕ → Perm → Res Perm
  | [], _, m => .ok m
  | _ :: _, [], _ => .throw
  | q :: qs, c :: cs, m => record qs cs (mapSet m q c)

/-- `isDynamicCircuit`, `hasMeasurements`, `measurementsLast`, `measurementMap`. -/
structure Scan where
  dyn : Bool := false
  has : Bool := false
  last : Bool := true
  map : Perm := []

/-- The check whether the circuit is dynamic (Simulation.cpp 59-90). -/
def scan : List (Op ℝ) → Scan → Res Scan
  | [], s => .ok s
  | .classic _ _ :: _, s => .ok { s with dyn := true }
  | .reset _ :: _, s => .ok { s with dyn := true }
  | .measure qs cs :: l, s =>
    (record qs cs s.map).bind fun m => scan l { s with has := true, map := m }
  | .std _ :: l, s => scan l { s with last := s.last && !s.has }
  | .compound _ _ :: l, s => scan l { s with last := s.last && !s.has }

/-! ### Measuring all qubits -/

/-- The loop of `measureAll`; the first argument is `i`. -/
def measureLoopR (eps : ℝ) : ℕ → VNode → Bits → Rand (Res Bits)
  | 0, _, r => .done (.ok r)
  | _ + 1, .term, _ => .done .ub
  | i + 1, .node v w c, r =>
    let p0 := normSq (w false)
    let p1 := normSq (w true)
    if |p0 + p1 - 1| > eps then .done .throw
    else .draw fun u =>
      if u < p0 / (p0 + p1) then measureLoopR eps i (c false) r
      else measureLoopR eps i (c true) (update r v true)

/-- The string of `k` bits, bit 0 last. -/
def str (k : ℕ) (m : Bits) : List Bool := (List.range k).map fun i => m (k - 1 - i)

/-- `measureAll(e, false, mt)`. -/
def measureAllR (e : VEdge) (eps : ℝ) : Rand (Res (List Bool)) :=
  if |normSq e.w - 1| > eps ∧ e.w = 0 then .done .throw
  else
    match e.p with
    | .term => .done (.ok [])
    | .node v w c => bindR (measureLoopR eps (v + 1) (.node v w c) fun _ => false) fun r => .done (.ok (str (v + 1) r))

/-- `counts[s] += k`. -/
def bump : List (List Bool × ℕ) → List Bool → ℕ → List (List Bool × ℕ)
  | [], s, k => [(s, k)]
  | (s', k') :: l, s, k => if s = s' then (s', k' + k) :: l else (s', k') :: bump l s k

/-- The loop over the shots. -/
def shotLoop (shot : Rand (Res (List Bool))) : ℕ → List (List Bool × ℕ) → Rand (Res (List (List Bool × ℕ)))
  | 0, c => .done (.ok c)
  | k + 1, c => bindR shot fun s => shotLoop shot k (bump c s 1)

/-! ### Circuits that are simulated once -/

/-- The state that is measured (Simulation.cpp 95-116). -/
def finalState (C : Qc) (e : VEdge) : Res VEdge :=
  (simLoop C.n mvmul (C.ops.filter isUni) C.init e).bind fun r =>
    (changePermutation C.n mvmul (fun e : VEdge => e.p = .term ∧ e.w = 0) r.2 r.1 C.out).bind fun r => .ok r.2

/-- `bitstring[bitstring.size() - 1U - i]`. -/
def readBit (s : List Bool) (i : ℕ) : Option Bool := if i < s.length then s[s.length - 1 - i]? else none

/-- The loop over the measured qubits (Simulation.cpp 136-141); `at` throws, indices that are too
large are undefined behaviour. -/
def convMeas (out : Perm) (nb : ℕ) (raw : List Bool) : Perm → List Bool → Res (List Bool)
  | [], s => .ok s
  | (q, b) :: l, s =>
    match out.lookup q with
    | none => .throw
    | some i =>
      match readBit raw i with
      | none => .ub
      | some v => if b < nb then convMeas out nb raw l (s.set (nb - 1 - b) v) else .ub

/-- The loop over the output permutation (Simulation.cpp 145-148). -/
def convOut (nb : ℕ) (raw : List Bool) : Perm → List Bool → Res (List Bool)
  | [], s => .ok s
  | (q, b) :: l, s =>
    match readBit raw q with
    | none => .ub
    | some v => if b < nb then convOut nb raw l (s.set (nb - 1 - b) v) else .ub

/-- The string that is reported for a measured string. -/
def conv (C : Qc) (s : Scan) (raw : List Bool) : Res (List Bool) :=
  let nb := if C.noCregs then C.n else C.ncb
  if s.has then convMeas C.out nb raw s.map (List.replicate nb false)
  else convOut nb raw C.out (List.replicate nb false)

/-- The loop over the counts (Simulation.cpp 131-153). -/
def convCounts (C : Qc) (s : Scan) :
    List (List Bool × ℕ) → List (List Bool × ℕ) → Res (List (List Bool × ℕ))
  | [], acc => .ok acc
  | (raw, k) :: l, acc => (conv C s raw).bind fun r => convCounts C s l (bump acc r k)

/-! ### Circuits that are simulated for every shot -/

/-- The loop of `applyMeasurement` over the (placed) qubits. -/
def dynMeas (n ncb : ℕ) (eps : ℝ) : List ℕ → List ℕ → VEdge → Bits → Rand (Res (VEdge × Bits))
  | [], _, e, m => .done (.ok (e, m))
  | _ :: _, [], _, _ => .done .throw
  | q :: qs, c :: cs, e, m =>
    .draw fun u =>
      match measureOne n e q eps u with
      | .ok (b, e') => if c < ncb then dynMeas n ncb eps qs cs e' (update m c b) else .done .throw
      | .throw => .done .throw
      | .ub => .done .ub

/-- `applyUnitaryOperation`. -/
def applyU (n : ℕ) (op : Op ℝ) (p : Perm) (e : VEdge) : Res VEdge :=
  (getDD n p false op).bind fun m =>
    match mvmul m e with
    | none => .ub
    | some e' => .ok e'

/-- The loop of `applyReset` over the (placed) qubits. -/
def dynReset (n : ℕ) (eps : ℝ) : List ℕ → VEdge → Rand (Res VEdge)
  | [], e => .done (.ok e)
  | q :: qs, e =>
    .draw fun u =>
      match measureOne n e q eps u with
      | .ok (b, e') =>
        if b then bindR (liftR (applyU n (.std { type := .x, targets := [q] }) [] e')) fun e'' => dynReset n eps qs e''
        else dynReset n eps qs e'
      | .throw => .done .throw
      | .ub => .done .ub

/-- The loop over the operations of one shot (Simulation.cpp 163-197). -/
def dynLoop (n ncb : ℕ) (eps : ℝ) : List (Op ℝ) → Perm → VEdge → Bits → Rand (Res Bits)
  | [], _, _, m => .done (.ok m)
  | .std o :: l, p, e, m =>
    bindR (liftR (simLoop n mvmul [.std o] p e)) fun r => dynLoop n ncb eps l r.1 r.2 m
  | .compound os b :: l, p, e, m =>
    bindR (liftR (simLoop n mvmul [.compound os b] p e)) fun r => dynLoop n ncb eps l r.1 r.2 m
  | .measure qs cs :: l, p, e, m =>
    match p.applyT qs with
    | none => .done .throw
    | some ts => bindR (dynMeas n ncb eps ts cs e m) fun r => dynLoop n ncb eps l p r.1 r.2
  | .reset qs :: l, p, e, m =>
    match p.applyT qs with
    | none => .done .throw
    | some ts => bindR (dynReset n eps ts e) fun e' => dynLoop n ncb eps l p e' m
  | .classic c op :: l, p, e, m =>
    if c m then bindR (liftR (applyU n (.classic c op) p e)) fun e' => dynLoop n ncb eps l p e' m
    else dynLoop n ncb eps l p e m

/-- The string of a shot (Simulation.cpp 202-207). -/
def shotStr (ncb : ℕ) (m : Bits) : List Bool :=
  (List.range ncb).foldl (fun s b => if m b then s.set (ncb - b - 1) true else s) (List.replicate ncb false)

/-- `sample`. -/
def sample (C : Qc) (e : VEdge) (shots : ℕ) (eps : ℝ) : Rand (Res (List (List Bool × ℕ))) :=
  bindR (liftR (scan C.ops {})) fun s =>
    if s.dyn || !s.last then
      shotLoop (bindR (dynLoop C.n C.ncb eps C.ops C.init e fun _ => false) fun m => .done (.ok (shotStr C.ncb m))) shots []
    else
      bindR (liftR (finalState C e)) fun e' =>
        bindR (shotLoop (measureAllR e' eps) shots []) fun c => liftR (convCounts C s c [])

/-! ### What is expected -/

/-- The number of measurement outcomes that occur. -/
def outcomes : List (Op ℝ) → ℕ
  | [] => 0
  | .measure qs cs :: l => (qs.zip cs).length + outcomes l
  | .reset qs :: l => qs.length + outcomes l
  | _ :: l => outcomes l

/-- Sum over all sequences of `k` outcomes. -/
def sumO : ℕ → ((ℕ → Bool) → ℂ) → ℂ
  | 0, F => F fun _ => false
  | k + 1, F => sumO k (fun o => F fun i => if i = 0 then false else o (i - 1))
      + sumO k (fun o => F fun i => if i = 0 then true else o (i - 1))

/-- The value of `x`, a function on memory contents, for one run of the circuit, times the squared
norm of the final (not normalised) state, which is the probability of the outcomes. -/
def weigh (n : ℕ) (x : Bits → ℂ) : Option Cfg → ℂ
  | none => 0
  | some c => (nrm n c.st : ℂ) * x c.mem

/-- The average of `x` over the memory contents after the circuit. -/
def average (n : ℕ) (ops : List (Op ℝ)) (ψ : State) (x : Bits → ℂ) : ℂ :=
  sumO (outcomes ops) fun o => weigh n x (run ops ⟨ψ, fun _ => false, o⟩)

/-- What the operations mean together, if there are no measurements: the average of `x` over the
outcomes of measuring all qubits of the final state. -/
def averageAll (n : ℕ) (ops : List (Op ℝ)) (ψ : State) (x : Bits → ℂ) : ℂ :=
  match run ops ⟨ψ, fun _ => false, fun _ => false⟩ with
  | none => 0
  | some c => sumB n (fun z => (normSq (c.st z) : ℂ) * x z) fun _ => false

/-- The polynomial with one variable for every string that has the counts as exponents. -/
def gen (x : List Bool → ℂ) (c : List (List Bool × ℕ)) : ℂ := (c.map fun e => x e.1 ^ e.2).prod

/-- The same for results of `sample`, 0 for failures. -/
def genR (x : List Bool → ℂ) : Res (List (List Bool × ℕ)) → ℂ
  | .ok c => gen x c
  | _ => 0

end MQT.Sim
