# Formal model of MQT Core: design

Source: `/repo` (cda-tum/mqt-core, pinned commit), read as text, not built, not run.
Model and proofs: `/verif/lean` (Lean 4.33.0, selected Mathlib modules).

## Trusted base

* Lean's kernel. The theorems depend on at most `propext`, `Classical.choice` and `Quot.sound`; the axioms of each
  theorem are listed under "Results per property". No axioms of our own, no `sorry` or `admit`, no `native_decide`, no
  `bv_decide`.
* The reading of the C++ code. Each definition of the model cites file and lines. Nothing checks the model against the
  code mechanically: the code was not built or run.
* The statements: the specifications beside the theorems, and the reference semantics of quantum operations
  (`Verif/IR/Semantics.lean`, `Verif/Opt/Op.lean`).
* Idealisations used everywhere unless a property says otherwise:
  * floating point numbers are exact real (complex) or rational numbers; tolerance comparisons are modelled explicitly
    where the property is about them (C15, C21, C55, C59), else idealised to equality;
  * machine integers are unbounded unless the property is about overflow (then `BitVec 64`);
  * pointers are abstract identifiers (naturals), memory is what the memory-manager model says;
  * decision diagrams are trees: sharing of nodes is the subject of C11 and C34, memoisation of C13;
  * hash functions are arbitrary functions;
  * containers of the standard library behave as documented (`std::map`, `std::set`, `std::unordered_map`);
  * undefined behaviour and exceptions are explicit outcomes (`none`, `Res.ub`, `Res.throw`).

## Layout

* `Verif/<Area>/<Topic>.lean`: models (definitions with citations), specifications, helper lemmas.
* `Verif/Props/<Topic>.lean`: the property theorems `cNN_...`, with concrete examples next to them.
* A theorem whose name ends in `_partial` proves part of its property; its comment says what is missing. Where the code
  violates a property, the negation is proved for a concrete witness, under a name of its own.
* `MANIFEST.json`: status and theorems per property. "proved" means the whole quantifier of the statement in
  `properties.jsonl`; anything excluded makes it "partial", also when the excluded part is a limit of the code.

## What is modelled

| Code | Model |
|---|---|
| `datastructures/DisjointSet.hpp`, `DirectedGraph.hpp`, `DirectedAcyclicGraph.hpp`, `UndirectedGraph.hpp`, `SymmetricMatrix.hpp`, `Layer.*` (construction, execution, interaction graph) | `DataStructures/` |
| `na/NAComputation.cpp`: `validate`, `getLocationOfAtomAfterOperation`; `na/entities/Location.hpp`: comparisons | `NA/Model` |
| `dd/MemoryManager.cpp`, `UniqueTable.cpp`, `ComputeTable.hpp`, `UnaryComputeTable.hpp`, `RealNumberUniqueTable.cpp`, `RealNumber.cpp` (tags), reference counts and `garbageCollect` of `Package.cpp` | `Memory/` |
| `ir/operations/OpType.*`, `StandardOperation.cpp` (`parseU*`, `commutesAtQubit`, `invert`), `Operation.cpp` (`equals`, `apply`), `CompoundOperation.cpp` (`commutesAtQubit`, `invert`, `addControl`), `ClassicControlledOperation.cpp` (constructors, copies), `Expression.hpp`, `SymbolicOperation.cpp` | `IR/` |
| `ir/QuantumComputation.cpp`: adding and removing qubits and registers, `invert`, `gphase`, `reorderOperations`, `initializeIOMapping`, `stripIdleQubits`, `isDynamic`, `instantiateInplace`, ancillary and garbage flags, registers when qubits are added and removed, `measureAll`, `appendMeasurementsAccordingToOutputPermutation`, `getDepth`, `getNindividualOps`, `getNsingleQubitOps`, `isLastOperationOnQubit`, `fromCompoundOperation`; `ir/Register.hpp` | `IR/Layout`, `IR/Circuit`, `Opt/Reorder`, `Opt/IOMap`, `Opt/Strip`, `Opt/Dynamic`, `IR/Symbolic`, `IR/Flags`, `IR/Registers`, `IR/MeasureAll`, `IR/Depth`, `IR/Count`, `IR/Register` |
| `dd/GateMatrixDefinitions.cpp` | `IR/Gates` |
| `circuit_optimizer/CircuitOptimizer.cpp`: `removeOperation`, `swapReconstruction`, `cancelCNOTs`, `decomposeSWAP`, `flattenOperations`, `replaceMCXWithMCZ`, `removeDiagonalGatesBeforeMeasure`, `elidePermutations`, `singleQubitGateFusion`, `eliminateResets`, `deferMeasurements`, `removeFinalMeasurements`, `backpropagateOutputPermutation`, `collectBlocks` | `Opt/` |
| `dd/CachedEdge.cpp`, `Edge.cpp` (reading), `Package.hpp`/`Package.cpp`: states, gates, add, addMagnitudes, multiply, conjugate, inner product, fidelityOfMeasurementOutcomes, isCloseToIdentity, expectation, kronecker, trace, partialTrace, measurement, reduceAncillae, reduceGarbage, transfer, deserialize, `Export.cpp` (`serialize`); density matrices: makeDDNode, add; `NoiseFunctionality.cpp` (deterministic and stochastic noise), `StochasticNoiseOperationTable.hpp` | `DD/` |
| `dd/Operations.cpp`, `Operations.hpp`, `Simulation.cpp` (`simulate`, `sample`), `FunctionalityConstruction.cpp` | `Sim/` |
| `algorithms/`: GHZ, BV, QFT, W state, Grover, QPE, state preparation | `Alg/` |
| `zx/Rational.cpp`, `ZXDiagram.cpp` (vertices and edges, `initGraph`, `closeGraph`, `toGraphlike`, `adjoint`, `concat`, `isIdentity`, `makeAncilla`, `removeDisconnectedSpiders`, `getAdjMat`, `getConnectedSet`), `Utils.cpp`, `Rules.cpp`, `Simplify.*` (loops), `FunctionalityConstruction.cpp` | `ZX/` |
| `qasm3/NestedEnvironment.hpp`, `passes/ConstEvalPass.cpp`, `passes/TypeCheckPass.cpp` with `Types.cpp` and `Types.hpp` (array types and designators that are not literals left out), `Parser.cpp` (expressions and statements), `Importer.cpp` (gate calls, conditions, and the loop over the statements without `if`, assignments other than measurements, initial values and hardware qubits), `StdGates.hpp`, `Scanner.cpp`, the comments with layouts (`QuantumComputation.cpp` 633-661, `Parser.cpp` 901-911); export of measurements, resets and barriers, and of standard operations (`StandardOperation.cpp` 253-495, 645-701), and the text of a circuit of these (`QuantumComputation.cpp` 55-74, 633-702) | `QASM/` |

## What is not modelled

* All of `src/python`; statistics; printing; file access; `dd/Export.cpp` (dot) and the syntax of serialised numbers and lines.
* In the noise model (`DD/Stochastic`) the operation cache (it is transparent for one noise model: C126) and the generator: a draw is a real number, uniformly distributed between 0 and 1, independent of the others; density matrices beyond makeDDNode and add.
* Garbage qubits in `sample`.
* `QuantumComputation`: the digits of a printed `double`; export of classically controlled and symbolic operations; controls of an `AodOperation` and circuits with AOD operations. Symbolic operations appear in `IR/Symbolic`
  only: passes and simulation are modelled for circuits without symbols.
* Layers of circuits with compound operations; the generator of `algorithms/RandomCliffordCircuit.cpp` and circuits without qubits there; in `qasm3/Parser.cpp` the positions for error messages and indices inside of expressions.
* `gadgetSimp`, `fullReduce`.

## Disagreements between the code and its properties

Proved, with a concrete witness (theorems under the property named):

* C01 `DisjointSet::findSet` of an unknown element joins it to the default element.
* C03 `DirectedAcyclicGraph::addEdge` updates the closure incompletely: a cycle can be accepted.
* C05 `UndirectedGraph::isAdjacent(v, v)` is false for a self loop.
* C07 `NAComputation::validate` lets loads and stores without targets name an atom twice. C08 `Location::operator>=` decides `<=`.
* C10 a memory manager of size 0, C11 a unique table constructed with variables: undefined behaviour.
* C13 tables keyed by cached edges answer within the tolerance; `UnaryComputeTable::clear` uses the wrong bucket count.
* C14 `garbageCollect` forgets conjugateVector and both AddMagnitudes tables. C15 border insertion breaks stability.
* C17 `opTypeFromString` does not know four AOD names. C21 `checkFractionPi` stores an infinite angle for huge inputs.
* C22 `QuantumComputation::invert` keeps the global phase.
* C23, C24, C28 a classically controlled compound operation reports no used qubits and is not renamed.
* C25 `decomposeSWAP` drops controls. C27 `removeDiagonalGatesBeforeMeasure` removes RZZ, and reads past the end.
* C30 copying a `ClassicControlledOperation` drops the comparison kind. C31 crz(c,t) compares equal to crz(t,c).
* C32 `addQubit` and `removeQubit` make layouts non-injective.
* C38 inner products of terminals are 0. C39 `kronecker2` with skipped top levels; its cache key. C40 `partialTrace`.
* C42 the zero vector does not survive a round trip. C43 `getValueByIndex` on terminal matrices.
* C45 `changePermutation` with missing values. C46, C69 controls of a global phase are ignored.
* C47 `buildFunctionalityRecursive` of one operation skips the output permutation. C48 registers above 64 bits.
* C49–C54 limits of the generators. C51 the QFT's output permutation reverses the result twice.
* C55 `createStatePreparationCircuit` with tolerance 0 rejects everything, with a large one prepares another state.
* C56 `PiRational` corrects by one period only; `int - phase` and `int / phase` are reversed.
* C57 `removeEdge` and `removeVertex` miscount. C58 fusing spiders with parallel edges. C74 loops on an empty diagram.
* C59 several `Expression` operators; `==`. C60 constant folding crashes and signs. C62 operator precedence.
* C63 OpenQASM 3 export of several measurements; lists that only start and end like a register.
* C66 `addMagnitudes` keeps phases of inner weights. C68 ragged matrices.
* C75 `checkAndFuseGadget` with a boundary leg or two leaves.
* C76 a constant on the left of a comparison, ignored indices, negated comparisons. C77 `negctrl` on gates with controls,
  dynamic scoping in gate bodies, wrapping control counts, greedy stripping of `c` prefixes. C78 mcx_vchain with one control.
  C79 type checking changes declared widths; unknown identifiers dereference null.
* C80 `singleQubitGateFusion` merges measurements and resets into blocks as gates and cancels gates around classically
  controlled blocks. C81 `eliminateResets` does not rewire nested or classically controlled blocks, leaves resets in
  blocks before the first reset at top level, and throws when there are ancillary qubits.
* C82 `deferMeasurements` moves measurements past gates on the measured qubit, ignores the kind of comparison, inserts
  controlled operations at the wrong place and skips measurements that directly follow another one.
* C83 `removeFinalMeasurements` removes a measurement whose bit a later operation is conditioned on, removes gates inside
  compound operations that contain a measurement, and does not terminate when such a compound has a part without targets.
* C84 `buildFunctionality` for ZX diagrams: ECR becomes a multiple of the identity, XX+YY gets the angle `-θ`, negative
  controls are taken for positive ones, the global phases of Y and of constant expressions are off; global phase gates,
  tiny and huge parameters are undefined behaviour.
* C85 `backpropagateOutputPermutation` assumes that physical qubits are numbered from 0 without gaps.
* C86 deterministic noise on a diagram that skips levels treats the successors of a lower node as those of the skipped
  level; after an operation without qubits it dereferences the end of an empty set.
* C87 stochastic noise scales damping events after multi-qubit operations with the gate noise probability; the state is lost
  if that is zero, or if depolarisation precedes amplitude damping. The check of the probabilities accepts values above 1
  for single-qubit operations if the factor is below 1.
* C88 `Layer` mistreats neighbouring inverse operations: executions can change the meaning or get stuck; a gate followed by a
  measurement makes the construction throw.
* C89 `sample` collects final measurements in a map from qubits to bits: a qubit measured into two bits is reported in one of
  them, a bit written by two qubits gets the one with the higher index. Without measurements the output permutation is
  applied twice.
* C90 `collectBlocks` adds later operations to blocks that stand before operations on the same qubits.
* C91 `reorderOperations` moves conditioned operations before the measurement they depend on, drops operations without qubits
  and all classically controlled blocks, and dereferences the end of a list when such a block is inside another one.
* C92 `initializeIOMapping` does not advance the classical bit for a qubit already measured: the next qubit of the same
  measurement gets a wrong output. A bit first written by two qubits is taken away from the first, or mapped to twice.
* C93 `stripIdleQubits` with force keeps output entries of a stripped logical qubit on other physical qubits; after renumbering
  two qubits have the same output, or an output number exceeds the number of qubits.
* C94 a barrier on a measured qubit makes a circuit dynamic.
* C95 a symbolic U(0, 0, x) becomes a P gate with three parameters and is instantiated to the identity; U(π/2, y, x) becomes a
  U2 gate that reads π/2 and y. Instantiating a canonicalised symbolic operation again throws. `SymbolicOperation::equals`
  compares the first symbol only. `instantiate` does not enter compound operations.
* C96 Peres gates are exported to OpenQASM with their targets exchanged. In OpenQASM 2 their negative controls become positive.
* C97 The scanner reads `0xA` as -22 (upper-case hexadecimal digits are taken relative to `a`), `3-1` as the numbers 3 and -1, `5dt` as five seconds and a name `t`; `#dim` cannot be scanned; a string without an end is read forever; an unknown character swallows the next one.
* C98 If a logical qubit other than the last is not an output, the imported output permutation renumbers those after it; without any output all qubits become outputs. Any comment containing `i`, a space and a digit is taken for an initial layout.
* C99 Without `normalizeWeights`, phases inside a part of the diagram that is added to zero survive, so that the documented `√(|a|² + |b|²)` is right up to phases only. With it, a negative multiple of the identity stays negative, and the zero matrix and terminals are dereferenced.
* C100 A multiple of the identity (a terminal) is read back as zero: without lines, `deserialize` multiplies the root weight by a default weight of 0.
* C101 `transfer` reads the top of an empty stack for every one-qubit state with a `|1⟩` part and for some two-qubit states and matrices. For matrices whose successors coincide, or occur below each other, a node is copied before its last successors, which become multiples of the identity.
* C102 `include "stdgates.inc";` is skipped by a plain `if` in `parseStatement`: a second include directly behind it, or the end of the file, is an error. So the OpenQASM 3 export of a circuit without registers cannot be imported, and a file that begins with an include cannot be included. `gate g() q {}`, `OPENQASM 3;` and `measure q;` are errors as well.
  `move` is exported under a name the importer does not know.
* C103 A register may be named as a keyword of OpenQASM (`in`, `bit`, `output`, ...), as `addQubitRegister` does not check names: what is exported then cannot be imported. An operation whose type has no name in OpenQASM is exported as its operands only, which cannot be imported either, rather than being rejected.
* C104 `TypeCheckPass::visitIndexedIdentifier` and `visitBinaryExpression` call `setDesignator` on the type shared with the environment. So `if (c[0])` makes `c` a register of one bit (a later `c = measure q` of two qubits is rejected, and `if (c)` accepted), and `if (c == 1)` makes it one of 32 bits (a later `if (c)` is rejected). Unknown identifiers that are indexed, negated with `!` or measured, and `!` or `~` of an ill-typed operand, read through a null pointer. A register named as a builtin constant keeps the type of the constant.
* C105 A quantum and a classical register may share a name in `QuantumComputation`, and a register may be named as one of the constants (`pi`, `tau`, `euler`): the exported text is rejected by the importer in the one case, and by the type check as soon as the register is measured in the other.
* C106 `removeOperation` looks into compound operations, but not into compound operations in these: an identity there stays, and a second call of `removeIdentities` may remove it because the outer operation was dissolved by the first.
* C107 `toGraphlike` toggles the first edge back for each of several parallel edges, so that the two ends of an edge disagree; `invert` does not negate the global phase.
* C108 `concat` adds the negated global phase of the second diagram, and drops edges between inputs of the second diagram.
* C109 `isIdentity` does not look at the types of the edges (contrary to its documentation: the diagram of a Hadamard gate is accepted) nor at spiders without edges (a diagram with the linear map 0 is accepted).
* C110 `makeAncilla` does not renumber the qubits of the other inputs; concatenation with the result reads beyond the end of the outputs.
* C111 `fidelityOfMeasurementOutcomes` counts the qubits of the permutation from the other end; a terminal is dereferenced.
* C112 `isCloseToIdentity` does not look at the weight of the root: the zero matrix and all multiples of the identity are accepted.
* C113 `removeDisconnectedSpiders` drops the number denoted by the removed vertices: a diagram with the linear map 0 can become the identity, and a phase is lost although the diagram has a global phase.
* C114 the iterator over edges reads the first list of an empty diagram; `getAdjMat` has as many rows as there are vertices, but is indexed with vertices, which are larger after a deletion.
* C115 two executable operations of the same type on the same qubits make `constructInteractionGraph` throw; `constructDAG` keeps equal operations apart, except the last operation of a qubit (`ct 0,1; ct 0,1`).
* C116 `append2QClifford` leaves out the rotation of the target after two CNOTs (`id / 27 % 3`) and before a SWAP (`id / 3 % 3`): different indices give the same circuit, and `cx 1,0; cx 0,1` is never drawn.
* C116 `uniform_int_distribution(0, 11520)` includes 11520, so index 0 is drawn twice as often as the others.
* C117 `roundToClifford` does not round phases just above `-π` to `π`: `-999/1000 π` stays with a tolerance of 1/100.
* C117 with a tolerance above 1/2 `roundToClifford` turns `π` into `π/2`, which is not the nearest multiple, because 1/2 is compared before 1.
* C118 `getLowestFraction` does not return the closest fraction, as documented: with denominators up to 2 it returns 1 for 0.74.
* C118 after `setTolerance` with a large tolerance `getLowestFraction` returns 1/5 for 0.1 although 0 is within the tolerance (0.1).
* C119 `AodOperation::invert` changes the type of activations and deactivations but not the name: an inverted `aod_activate` is still written as `aod_activate`.
* C119 `AodOperation::dumpOpenQASM` overwrites a parenthesis if there are no operations or no qubits.
* C120 `ComplexValue::toString` prints `(1+i)` or `(1-i)` alone for numbers whose real part is within the tolerance of 0 and whose imaginary part is not but is within the tolerance of the real part or its opposite: the factor is missing, `toString(eps/2, 7/5 eps)` is `(1+i)`.
* C120 `hash<ComplexValue>` converts a negative `double` to `size_t`, which is undefined behaviour; `hash<CachedEdge>` calls it with weights of any sign.
* C120 complex numbers that `approximatelyEquals` counts as equal can have different hashes, and so can cached edges that are equal.
* C121 `QuantumComputation::unifyQuantumRegisters` sets the number of ancillary qubits to 0 but keeps their flags, `reset` keeps the ancillary and garbage flags (a register added afterwards inherits them), and `removeQubit` leaves an entry without a qubit in both vectors.
* C122 `addQubitToQubitRegister` names a new register after the default name and the qubit: if there is a register of this name already (`q_5` that qubits were removed from), the qubit ends up in no register. `consolidateRegister` joins registers that the user has called `q_l` and `q_h` and loses their qubits if there is a register `q`.
* C123 `appendMeasurementsAccordingToOutputPermutation` adds as many bits as there are outputs, but measures into the bits with the numbers of the outputs: with a garbage qubit before an output (outputs 0 and 2 of three qubits) it throws after the barrier and some of the measurements have been appended. `measureAll` measures the qubits `0` to `n - 1`, which throws in the same way if a qubit was removed and the physical qubits have other numbers.
* C124 `addDepthContribution` takes the targets of a classically controlled operation, which are empty for a compound operation: such operations do not count for the depth; classically controlled barriers do. `getDepth` dereferences the end of an empty vector for a circuit with operations but no qubits (`barrier()` on an empty circuit), and accesses the vector behind its end if qubits were removed before those with gates (`stripIdleQubits`).
* C125 `getNindividualOps` counts a compound operation within a compound operation as one, `getNsingleQubitOps` does not count its gates, but barriers on one qubit. `isLastOperationOnQubit` overlooks qubits with numbers not below the number of qubits. `fromCompoundOperation` overlooks the bits of measurements in nested compound operations and those of classically controlled operations, and the qubits of classically controlled compound operations: the circuit is too small.
* C126 The key of the cache of noise operations is the kind and the target, not the probability: a second noise model with the same package applies the operations of the first. With the default configuration the cache has one kind of operation: every other kind throws.
* C127 `Register::operator==` ignores the start, which the hash does not: equal registers have different hashes (both are visible from Python), and circuits that differ only in the order of their registers (gate on `a[0]` or on `b[0]`) are equal. `getEndIndex` of an empty register at 0 is the largest number.

Noticed while reading and not proved, mostly because the code concerned is not modelled:

* `transfer` drops the root weight.
* The ZX diagrams of RX, RY, U2 and U have the wrong global phase (the proof of C84 shows which), that of XX-YY the angle `-θ`.
* The constants `π`, `τ` and `ℇ` of OpenQASM 3 are known to the importer, but their characters cannot be scanned.

## Mutation tests

`seeded/LOG.jsonl` has one line per wrong variant of a definition: the edit, the property it breaks, the declarations
that no longer compile (`failed`), and the theorems that were tightened because of it.

* A mutant counts as killed when a module fails to build. `failed` lists where the errors are; the first failing lemma
  stops the modules that import it, so property theorems further down are often not listed. A broken proof shows that
  the proof used the definition, not by itself that the property became false; the `claim` says why it does.
* Survivors are kept in the log. Those that exposed a weak statement name the theorem tightened.
* Until the QASM import tests the unmutated tree was not rebuilt before a run. One run (two mutants) turned out to have
  been made on a tree that did not build; its lines were removed and the mutants run again. A mutant of `Bfs.run`
  whose definition did not elaborate was replaced. 44 other entries chosen at random from the first 430 were then replayed
  on a tree known to build: all were killed again, one with an additional failing theorem. The other entries were not
  replayed. Runs since then check the unmutated tree first.

## Results per property

Theorem names are relative to the namespace `MQT`; in brackets the axioms the theorem depends on, as printed by `#print axioms`:
`p` = `propext`, `c` = `Classical.choice`, `q` = `Quot.sound`, – = none.

* **C01 Union-find answers connectivity** — proved. find/union history; second theorem records that an unknown element is silently default-inserted
  `DSU.c01_unionFind_connectivity` (pcq), `DSU.c01_unknown_element_joins_default` (–).
* **C02 Directed graph bookkeeping equals the edge set** — proved. 
  `DG.c02_directedGraph_bookkeeping` (pcq).
* **C03 DAG reachability and cycle rejection** — partial. The full claim is false for the code: the closure update misses pairs (c03_not_complete) and a cycle can be accepted (c03_cycle_accepted). Proved: soundness for all histories, exactness for histories where every new edge leaves a vertex without predecessors or enters one without successors (Tame).
  `DAG.c03_reachability_sound_partial` (pcq), `DAG.c03_reachability_exact_partial` (pcq), `DAG.c03_not_complete` (p), `DAG.c03_cycle_accepted` (pcq).
* **C04 Topological order is a topological order** — proved. 
  `DAG.c04_topological_order` (pcq), `DAG.c04_topological_order_tame` (pcq).
* **C05 Undirected graph is symmetric and counts its edges** — proved. second theorem records that isAdjacent(v,v) is false for a self loop
  `UG.c05_undirectedGraph` (pcq), `UG.c05_selfLoop_not_adjacent` (p).
* **C06 Symmetric matrix reads are symmetric and read-your-writes** — proved. 
  `SymMat.c06_symmetricMatrix` (pq).
* **C07 Neutral-atom validation accepts only physically consistent programs** — partial. Exact characterisation of validate; missing: loads/stores without targets may name an atom twice (counterexample proved)
  `NA.c07_validate_iff_consistent_partial` (pcq), `NA.c07_duplicate_load_accepted` (p), `NA.c07_loaded_order_not_preserved` (p), `NA.c07_unlocated_atom_accepted` (p).
* **C08 Atom locations are ordered consistently** — partial. operator>= decides <= (proved); everything else holds
  `NA.c08_location_order_partial` (p), `NA.c08_ge_is_le` (p).
* **C09 Location after an operation is the last target of the atom** — proved. 
  `NA.c09_location_after_operation` (pq).
* **C10 Memory manager never hands out a live entry** — partial. Full statement for managers with a positive initial size; the empty manager is undefined behaviour (witness theorem).
  `Mem.c10_memoryManager_partial` (pcq), `Mem.c10_growth_factor_two` (p), `Mem.c10_empty_manager_ub` (–).
* **C11 Unique table stores each node once** — partial. Full statement for tables created with 0 variables and resized (as Package does); the constructor with nVars > 0 creates tables without buckets (witness theorem).
  `UT.c11_uniqueTable_partial` (pcq), `UT.c11_garbageCollect` (pcq), `UT.c11_constructor_without_buckets` (p).
* **C12 Garbage collection never frees a reachable node** — proved. Safety for all saturation bounds, exactness while no count is saturated; saturated nodes leak (witness theorem).
  `Ref.c12_refcount_gc` (pcq), `Ref.c12_gc_frame` (pq), `Ref.c12_saturated_leaks` (pcq).
* **C13 Compute tables are transparent** — partial. Proved for tables with exactly compared operands (node pointers) incl. memoised recursion; tables keyed by CachedEdge may answer within the tolerance (witness), unary tables with more than NBUCKET buckets go out of range after clear (witness).
  `CT.c13_computeTable_exact_partial` (pq), `CT.c13_computeTable_tolerance` (pq), `CT.c13_memo_transparent` (pq), `CT.c13_unaryTable_partial` (pq), `CT.c13_tolerance_hit` (p), `CT.c13_unary_clear_out_of_range` (p).
* **C14 No cached result outlives the nodes it mentions** — partial. Holds for 14 of 17 tables; false for conjugateVector, vectorAddMagnitudes, matrixAddMagnitudes (witness theorems).
  `PGC.c14_no_stale_entries_partial` (pq), `PGC.c14_clearComputeTables` (p), `PGC.c14_stale_conjugateVector` (pq), `PGC.c14_stale_addMagnitudes` (pq), `PGC.c14_return_ignores_density` (pq).
* **C15 Real-number table returns a value within tolerance, stably** — partial. Tolerance and sign proved in full; stability holds except for new entries near a border of a non-empty bucket (witness) and not across other lookups (witness).
  `RT.c15_within_tolerance` (pcq), `RT.c15_lookup_stable_partial` (pcq), `RT.c15_border_lookup_unstable` (pcq), `RT.c15_intermediate_lookup_changes_entry` (pcq), `RT.c15_tails_and_collection` (pcq), `RT.c15_entries_kept` (pcq).
* **C16 Sign-tagged real-number pointers** — proved. All 64-bit aligned pointers.
  `Tag.c16_tagged_pointers` (pcq), `Tag.c16_negative_zero` (pq).
* **C17 Operation type names round-trip and flags agree with the mathematics** — partial. Name round trip holds for all types except a_true, a_false, multi_a_true, multi_a_false, which opTypeFromString does not know (negation proved). Diagonal flag and inverse flag parts are proved in full for all gate types and parameters.
  `IR.c17_names_roundtrip_partial` (p), `IR.c17_names_unlisted` (p), `IR.c17_names_roundtrip_fails` (p), `IR.c17_codes_distinct` (p), `IR.c17_diagonal_single` (pcq), `IR.c17_diagonal_two` (pcq), `IR.c17_flip_inverse` (pcq).
* **C18 Every gate matrix is unitary** — proved. All gate types, all real parameters (exact reals).
  `IR.c18_single_unitary` (pcq), `IR.c18_two_unitary` (pcq), `IR.c18_no_matrix` (pcq).
* **C19 invert() yields the inverse gate** — proved. Both implementations of inversion; all controls and targets; exact reals.
  `IR.c19_invert_undoes` (pcq), `IR.c19_simulator_inverse_undoes` (pcq).
* **C20 Commutation test is sound** — proved. Standard and arbitrarily nested compound operations.
  `IR.c20_commutes_sound` (pcq), `IR.c20_compound_commutes_sound` (pcq).
* **C21 Gate canonicalisation preserves the gate** — proved. Stored matrix within 39*tolerance of the requested one entry by entry; a gate is always stored for angles below pi/tol - tol; beyond that checkFractionPi stores an infinite angle (proved).
  `IR.ParseU.c21_canonical_gate` (pcq), `IR.ParseU.c21_other_types_untouched` (pcq), `IR.ParseU.c21_exact_rules` (pcq), `IR.ParseU.c21_always_a_gate` (pcq), `IR.ParseU.c21_huge_angle_lost` (pcq).
* **C22 Inverting a circuit undoes it** — partial. Operation list: proved in full. Whole circuit: proved up to twice the global phase; invert does not negate the global phase, so the full statement is false (witness: global phase pi/2).
  `IR.c22_invert_ops_undoes` (pcq), `IR.c22_invert_qc_phase` (pcq), `IR.c22_invert_undoes_partial` (pcq), `IR.c22_invert_fails` (pcq).
* **C23 SWAP reconstruction preserves the circuit's action** — partial. Proved for every circuit (nested compounds, measurements, resets, classical control, any controls) in which no classically controlled operation wraps a compound operation. For those the property is false and the negation is proved (getUsedQubits of such an operation is empty).
  `Opt.c23_swap_reconstruction_partial` (pcq), `Opt.c23_fails_around_controlled_blocks` (pcq).
* **C24 CNOT cancellation preserves the circuit's action** — partial. Same scope and same counterexample as C23.
  `Opt.c24_cancel_cnots_partial` (pcq), `Opt.c24_fails_around_controlled_blocks` (pcq).
* **C25 SWAP decomposition preserves the circuit's action** — partial. Proved for all circuits without controlled SWAPs at the places the pass rewrites; for controlled SWAPs the property is false (controls dropped), negation proved.
  `Opt.c25_decompose_swap_partial` (pcq), `Opt.c25_fails_for_controlled_swap` (pcq).
* **C26 MCX to MCZ replacement preserves the circuit's action** — proved. All circuits, any nesting.
  `Opt.c26_replace_mcx` (pcq).
* **C27 Removing diagonal gates before measurements is invisible** — partial. Whenever the pass returns: proved for circuits without compound operations whose diagonal gates have a single target (any controls), with measurements anywhere, resets and classical control. For two-target diagonal gates the property is false (negation proved); undefined behaviour on simple circuits is proved too.
  `Opt.c27_remove_diagonal_partial` (pcq), `Opt.c27_remove_diagonal_norm_partial` (pcq), `Opt.c27_fails_for_two_target_gates` (pcq), `Opt.c27_undefined_behaviour` (pcq).
* **C28 Permutation elision preserves the circuit** — partial. Proved for all circuits (any nesting and layouts) in which no classically controlled operation wraps a compound operation; for those the property is false (the wrapped operations are not renamed), negation proved.
  `Opt.c28_elide_permutations_partial` (pcq), `Opt.c28_fails_for_controlled_blocks` (pcq).
* **C29 Flattening preserves the operation sequence** — proved. All circuits, any nesting, both modes.
  `Opt.c29_flatten_all` (pq), `Opt.c29_flatten` (pcq).
* **C30 A copied classically controlled operation keeps its condition** — partial. Holds for bit-controlled operations and for register conditions with ==; for every other comparison kind the property is false and the negation is proved.
  `IR.c30_copy_partial` (–), `IR.c30_copy_bit` (p), `IR.c30_copy_loses_kind` (pcq), `IR.c30_assign_mixes` (–).
* **C31 Equal operations act equally** — partial. Sound for every type except controlled rz/rzz, where exchanging control and target compares equal although the gates differ (negation proved).
  `IR.c31_equals_sound_partial` (pcq), `IR.c31_equals_nondiagonal` (pcq), `IR.c31_equals_refl` (pcq), `IR.c31_equals_fails` (pcq).
* **C32 Qubit layout stays a bijection** — partial. Injectivity proved for all histories that append logical qubits at the end and remove only the last one; for the other histories the property is false and three witnesses are proved.
  `IR.Layout.c32_layout_injective_partial` (pcq), `IR.Layout.c32_fails_on_insert` (–), `IR.Layout.c32_fails_after_remove` (–), `IR.Layout.c32_fails_with_ancillae` (–).
* **C33 Node normalisation preserves the represented vector and matrix** — proved. Node creation for vectors and matrices, both variants of the vector normalisation; exact complex weights (tolerance 0). Equal inputs give equal outputs because the model is a function and nodes are trees.
  `DD.c33_vector` (pcq), `DD.c33_vector_normalised` (pcq), `DD.c33_vector_factor` (pcq), `DD.c33_vector_variants` (pcq), `DD.c33_matrix` (pcq), `DD.c33_matrix_normalised` (pcq).
* **C34 Decision diagrams are canonical** — partial. Built is the closure under the modelled operations (states, gates, addition, multiplication, conjugation, Kronecker products, measurement, ancillary reduction, scaling) in exact arithmetic; kroneckers with an identity on top of the right factor and partial traces are excluded, see C39/C40.
  `DD.c34_shape_partial` (pcq), `DD.c34_vector` (pcq), `DD.c34_matrix` (pcq), `DD.c34_vector_multiple` (pcq).
* **C35 DD addition is vector/matrix addition** — proved. add/add2 for vectors and matrices including skipped levels; the result is again of the shape the package builds, and undefined behaviour does not occur. Exact arithmetic.
  `DD.c35_vector` (pcq), `DD.c35_matrix` (pcq), `DD.c35_comm` (pcq).
* **C36 DD multiplication is the matrix product** — proved. multiply/multiply2 for matrix-matrix and matrix-vector including skipped levels. Exact arithmetic; density-matrix branches not modelled.
  `DD.c36_matrix_matrix` (pcq), `DD.c36_matrix_vector` (pcq).
* **C37 Conjugate and conjugate-transpose** — proved. Values and involution (equality of DDs, by canonicity). Exact arithmetic.
  `DD.c37_conjugate` (pcq), `DD.c37_conjugate_twice` (pcq), `DD.c37_conjugate_transpose` (pcq), `DD.c37_conjugate_transpose_twice` (pcq).
* **C38 Inner product and fidelity** — proved. For n >= 1 qubits. c38_fails_without_qubits: with no qubits the code returns 0 for every pair of scalars. Exact arithmetic.
  `DD.c38_inner_product` (pcq), `DD.c38_fidelity` (pcq), `DD.c38_fails_without_qubits` (pcq).
* **C39 Kronecker product** — partial. Vectors: proved for all. Matrices: proved when the right operand is an identity/zero or has its root on its top level; false otherwise (skipped top levels), with witness; compute table key lacks the number of qubits, with witness.
  `DD.c39_vector` (pcq), `DD.c39_matrix_partial` (pcq), `DD.c39_matrix_effective` (pcq), `DD.c39_matrix_wrong` (pcq), `DD.c39_table_transparent` (pcq), `DD.c39_table_wrong` (pcq).
* **C40 Trace and partial trace** — partial. trace is proved for all matrices; partialTrace is proved for every shape in which no eliminated level is skipped above a kept node (in particular whenever only the lowest qubits are eliminated); outside of that the code is wrong or undefined (c40_underflow, c40_partial_trace_wrong), and a zero result keeps a non-terminal node (c40_zero_not_terminal).
  `DD.c40_trace` (pcq), `DD.c40_partial_trace_partial` (pcq), `DD.c40_partial_trace_low` (pcq), `DD.c40_table_transparent` (pcq), `DD.c40_underflow` (pcq), `DD.c40_partial_trace_wrong` (pcq), `DD.c40_zero_not_terminal` (pcq).
* **C41 Gate DDs represent the controlled gate** — proved. All matrices, controls, targets; exact arithmetic.
  `DD.c41_gate_matrix` (pcq), `DD.c41_gate_action` (pcq), `DD.c41_two_qubit_matrix` (pcq), `DD.c41_two_qubit_action` (pcq), `DD.c41_out_of_range` (pcq).
* **C42 State constructors build the states they name** — partial. Round trip for all non-zero vectors; the zero vector collapses to length 1 and makeBasisState with start > 0 reads past a short list (both proved as counterexamples).
  `DD.c42_zero_state` (pcq), `DD.c42_basis_state` (pcq), `DD.c42_product_state` (pcq), `DD.c42_ghz_state` (pcq), `DD.c42_w_state` (pcq), `DD.c42_from_vector` (pcq), `DD.c42_from_vector_rejects` (pcq), `DD.c42_get_vector` (pcq), `DD.c42_round_trip_partial` (pcq), `DD.c42_get_value` (pcq), `DD.c42_short_vector_undefined` (pcq), `DD.c42_zero_vector_collapses` (pcq).
* **C43 Reading a matrix entry agrees with the whole matrix** — partial. getMatrix correct for all; getValueByIndex wrong for terminal matrices (off-diagonal entries), correct otherwise.
  `DD.c43_get_matrix` (pcq), `DD.c43_get_value_partial` (pcq), `DD.c43_terminal_wrong` (pcq).
* **C44 Measurement probabilities are the squared norms** — proved. Probabilities, collapse and the Born rule (volume of the set of draws) with exact weights; draws are inputs in [0,1).
  `DD.c44_probabilities` (pcq), `DD.c44_out_of_range_undefined` (pcq), `DD.c44_measure_one` (pcq), `DD.c44_measure_all_total` (pcq), `DD.c44_measure_all_born` (pcq), `DD.c44_assign` (pcq).
* **C45 Changing a permutation moves qubits as announced** — partial. Proved for states and for matrices from either side when the target's keys and values occur in the current permutation. A target value that does not occur is silently replaced by the value of key 0 (disproved with witness); a missing key dereferences end().
  `Sim.c45_state_partial` (pcq), `Sim.c45_left_partial` (pcq), `Sim.c45_right_partial` (pcq), `Sim.c45_zero` (pcq), `Sim.c45_missing_value` (pcq), `Sim.c45_missing_key` (pcq).
* **C46 Simulation with virtual SWAPs is faithful** — partial. Proved for unitary circuits without controlled global phases; the latter are simulated without their controls (disproved with witness). Garbage qubits: C99.
  `Sim.c46_simulate_partial` (pcq), `Sim.c46_controlled_phase_ignored` (pcq).
* **C47 Recursive functionality construction equals the sequential one** — partial. Proved for circuits with at least two operations (with garbage qubits: c99_recursive_partial); with a single operation the recursive version skips the output permutation and ancillary reduction (disproved with witness), with none it converts log2(0).
  `Sim.c47_recursive_partial` (pcq), `Sim.c47_single_operation` (pcq), `Sim.c47_empty` (pcq).
* **C48 Classically controlled execution compares the right value** — partial. Proved for every register of at most 64 bits and for single bits; for wider registers a set high bit is undefined behaviour (shift by 64), proved as a distinct outcome.
  `IR.c48_register_partial` (pcq), `IR.c48_bit` (pq), `IR.c48_inverted` (p), `IR.c48_wide_register_undefined` (pcq).
* **C49 The GHZ circuit prepares the GHZ state** — proved. all n>=1; simulating the circuit yields exactly the diagram of makeGHZState; n = 0 throws
  `Alg.c49_ghz` (pcq), `Alg.c49_zero_qubits` (pcq), `Alg.c49_simulated` (pcq).
* **C50 Bernstein-Vazirani recovers the hidden string with certainty** — partial. both versions: only the hidden string has a nonzero branch, with amplitude 1; lengths above the 4096-bit bitset throw
  `Alg.c50_bernstein_vazirani_partial` (pcq), `Alg.c50_too_long` (pcq), `Alg.c50_length` (pq), `Alg.c50_iterative` (pcq).
* **C51 The QFT circuit is the discrete Fourier transform** — partial. the circuit is the DFT; the declared output permutation reverses the result a second time, so simulate reports the bit-reversed DFT (disagreement, proved)
  `Alg.c51_qft_partial` (pcq), `Alg.c51_basis` (pcq), `Alg.c51_measured` (pcq), `Alg.c51_iterative` (pcq), `Alg.c51_iterative_round` (pcq), `Alg.c51_reported` (pcq), `Alg.c51_reported_not_transform` (pcq).
* **C52 The W-state circuit prepares the W state** — proved. all n>=1; simulating yields exactly the diagram of makeWState; n = 0 throws
  `Alg.c52_w_state` (pcq), `Alg.c52_zero_qubits` (pcq), `Alg.c52_simulated` (pcq).
* **C53 Grover's circuit amplifies exactly the marked element** — partial. all n>=1 (n = 0 data qubits is not considered), all k; more than 128 data qubits throw
  `Alg.c53_grover_partial` (pcq), `Alg.c53_measured` (pcq), `Alg.c53_too_long` (pcq).
* **C54 Phase estimation is exact on exact phases** — partial. precision up to 64 (beyond, a 64-bit shift is undefined); the iterative circuit has the same amplitude for every phase and outcome
  `Alg.c54_exact_partial` (pcq), `Alg.c54_generated` (pcq), `Alg.c54_iterative` (pcq), `Alg.c54_iterative_exact` (pcq).
* **C55 State preparation prepares the requested amplitudes** — partial. Exact arithmetic. For every normalised vector of length 2^n all sufficiently small tolerances give a circuit preparing exactly the vector, including the global phase; c55_clear states it for any tolerance that makes every comparison clear-cut. c55_large_tolerance shows the tolerance matters.
  `Alg.c55_prepares_partial` (pcq), `Alg.c55_clear` (pcq), `Alg.c55_accepts_iff` (pcq), `Alg.c55_zero_tolerance` (pcq), `Alg.c55_large_tolerance` (pcq).
* **C56 Phases stay in (-pi, pi] and are right modulo 2 pi** — partial. Sums, differences, negatives, products and integer quotients of phases in range are proved in range and congruent. Construction, integer arithmetic and division are always congruent but in range exactly when the exact value lies in (-3,3], because modPi corrects once; counterexamples proved. int - phase and int / phase compute the opposite order (proved). Construction from a double is in range and within 1e-9 pi when it succeeds; inputs with undefined behaviour or a division by zero are exhibited.
  `ZX.PiRational.c56_add` (pcq), `ZX.PiRational.c56_sub` (pcq), `ZX.PiRational.c56_neg` (pcq), `ZX.PiRational.c56_mul` (pcq), `ZX.PiRational.c56_construct_partial` (pcq), `ZX.PiRational.c56_ofFrac_partial` (pcq), `ZX.PiRational.c56_integers_partial` (pcq), `ZX.PiRational.c56_div_partial` (pcq), `ZX.PiRational.c56_divInt` (pcq), `ZX.PiRational.c56_out_of_range` (pcq), `ZX.PiRational.c56_div_out_of_range` (pcq), `ZX.PiRational.c56_int_left_wrong` (pcq), `ZX.PiRational.c56_ofReal_partial` (pcq), `ZX.PiRational.c56_ofReal_overflow` (pcq), `ZX.PiRational.c56_ofReal_huge` (pcq), `ZX.PiRational.c56_compare` (pcq).
* **C57 ZX diagram bookkeeping** — partial. Proved for histories on existing vertices without self loops where removeEdge meets exactly one edge and addEdgeParallelAware at most one; each operation refines a multigraph. Counterexamples for parallel/missing edges in removeEdge, double removeVertex and self loops. addEdgeParallelAware silently ignores an edge parallel to an edge of a boundary vertex.
  `ZX.c57_step` (pcq), `ZX.c57_history_partial` (pcq), `ZX.c57_removeEdge_parallel` (pcq), `ZX.c57_removeEdge_missing` (pcq), `ZX.c57_removeVertex_twice` (pcq), `ZX.c57_self_loop` (pcq).
* **C58 ZX rewrite rules preserve the linear map** — partial. For diagrams with right bookkeeping, no parallel edges, normalised phases and at most one edge per boundary vertex (Good, preserved by every rule). c58_fuse_parallel shows that parallel edges have to be excluded. The factor is a positive real: the global phase is tracked exactly.
  `ZX.c58_removeId_partial` (pcq), `ZX.c58_fuseSpiders_partial` (pcq), `ZX.c58_localComp_partial` (pcq), `ZX.c58_pivotPauli_partial` (pcq), `ZX.c58_pivot_partial` (pcq), `ZX.c58_pivotGadget_partial` (pcq), `ZX.c58_fuse_parallel` (pcq).
* **C59 Symbolic expression arithmetic is evaluation-compatible** — partial. Sums and differences evaluate to the sum and difference up to the tolerance with which coefficients are dropped (exactly when no coefficients nearly cancel; for phases modulo 2 pi); negation, quotients, adding constants exact; products exact unless the factor is below the tolerance. Not exact always: near-cancelling coefficients and small factors are counterexamples. Number + expression, constant - expression, term - expression, phase * expression and == are wrong, as proved.
  `Sym.Expression.c59_add_partial` (pcq), `Sym.Expression.c59_sub_partial` (pcq), `Sym.Expression.c59_neg` (pcq), `Sym.Expression.c59_mul_partial` (pcq), `Sym.Expression.c59_div` (pcq), `Sym.Expression.c59_divInt` (pcq), `Sym.Expression.c59_mul_pi_partial` (pcq), `Sym.Expression.c59_evaluate_iff` (pcq), `Sym.Expression.c59_construct` (pcq), `Sym.Expression.c59_plusConst` (pcq), `Sym.Expression.c59_eq_partial` (pcq), `Sym.Expression.c59_near_cancel` (pcq), `Sym.Expression.c59_small_factor` (pcq), `Sym.Expression.c59_eq_wrong` (pcq), `Sym.Expression.c59_scalarPlus_wrong` (pcq), `Sym.Expression.c59_constMinus_swapped` (pcq), `Sym.Expression.c59_termMinus_swapped` (pcq), `Sym.Expression.c59_mulPi_inconsistent` (pcq), `Sym.Expression.c59_unsorted` (pcq).
* **C60 Constant folding computes the C-level result** — partial. Exact result modulo 2^64, with the undefined and error cases characterised exactly, for 64-bit operands and whole expression trees; single operators also for operands of any two widths. The code crashes on division by zero, shifts, 0 to a power; a negative exponent gives 1; narrow unsigned results are sign extended; all with witnesses.
  `QASM.c60_int_partial` (pcq), `QASM.c60_width` (pcq), `QASM.c60_mixed_width` (pcq), `QASM.c60_expr_partial` (pcq), `QASM.c60_crash` (pcq), `QASM.c60_negative_exponent` (pcq), `QASM.c60_unsigned_float` (pcq), `QASM.c60_narrow` (pq).
* **C61 Lexical scoping** — proved. For every nested block program.
  `QASM.c61_lexical` (pcq), `QASM.c61_leave` (pcq), `QASM.c61_innermost` (pcq).
* **C62 Expression parsing respects precedence** — partial. Exact characterisation of the trees that read back as themselves, and of the grammar the code reads; the property is false in the code for the others (comparisons bind tighter than sums, power associates to the left, a leading minus takes the whole product). Token lists; identifiers without an index.
  `QASM.Parse.c62_partial` (pcq), `QASM.Parse.c62_arith` (pcq), `QASM.Parse.c62_full` (pcq), `QASM.Parse.c62_grammar` (pcq), `QASM.Parse.c62_unambiguous` (pcq), `QASM.Parse.Demo.c62_wrong` (p).
* **C63 Exported measurements name the right bits** — partial. Syntax trees of the statements, not the text. False in the code for several targets in OpenQASM 3, for lists that only start and end like a register, and for empty lists (witnesses).
  `QASM.c63_reset_partial` (pq), `QASM.c63_barrier_partial` (pcq), `QASM.c63_measure_partial` (pcq), `QASM.c63_single` (pcq), `QASM.c63_qasm3` (p), `QASM.c63_gap` (p), `QASM.c63_empty` (p).
* **C64 The gate matrices are the documented gates** — proved. Every type and every parameter list, against an independent specification with Pauli matrices, exponentials and basis-state maps.
  `IR.c64_single_qubit_gates` (pcq), `IR.c64_two_qubit_gates` (pcq).
* **C65 The global phase stays normalised** — proved. Exact reals; loops with fuel, result independent of the fuel once sufficient.
  `IR.c65_gphase_normalised` (pcq), `IR.c65_gphase_unique` (pcq).
* **C66 Element-wise magnitude sum** — partial. The squared modulus of every entry is |x|^2+|y|^2 (proved for vectors and matrices). The documented value itself is wrong: phases of inner weights survive, witness in c66_phases_survive.
  `DD.c66_vector_partial` (pcq), `DD.c66_matrix_partial` (pcq), `DD.c66_phases_survive` (pcq).
* **C67 Expectation values** — partial. Exact arithmetic. For states on n >= 1 qubits with non-zero root weight; an assertion of the code excludes terminal states.
  `DD.c67_expectation_partial` (pcq), `DD.c67_rejects` (pcq).
* **C68 Matrix construction round trip** — proved. All square power-of-two matrices; ragged input is undefined behaviour (witness).
  `DD.c68_from_matrix` (pcq), `DD.c68_round_trip` (pcq), `DD.c68_ragged_undefined` (pcq).
* **C69 Operation diagrams denote the relabelled operation; inverses are adjoints** — partial. Proved for all standard and nested compound unitary operations except controlled global phases, whose controls getDD ignores (disproved with witness).
  `Sim.c69_get_dd_partial` (pcq), `Sim.c69_inverse` (pcq), `Sim.c69_controlled_phase_ignored` (pcq), `Sim.c69_default_permutation` (pcq).
* **C70 Ancillary reduction projects exactly the ancillary qubits** — proved. 
  `Sim.c70_reduce_ancillae` (pcq), `Sim.c70_initial_matrix` (pcq), `Sim.c70_idempotent` (pcq).
* **C71 The functionality matrix holds the circuit's action on every basis state** — partial. Proved for circuits without controlled global phases (garbage qubits: c99_functionality_partial); the circuit's own global phase is ignored by the code.
  `Sim.c71_functionality_partial` (pcq).
* **C72 The chosen number of Grover iterations succeeds** — partial. Exact real arithmetic in computeNumberOfIterations. The list of operations is considered; above 128 qubits the generator throws (C53).
  `Alg.c72_success_partial` (pcq).
* **C73 Phase estimation finds the nearest value with good probability** — proved. precision up to 64
  `Alg.c73_nearest` (pcq), `Alg.c73_inexact` (pcq).
* **C74 ZX simplification loops** — partial. Soundness for every number of iterations of all loops; termination and exhaustion of interiorCliffordSimp. Missing: termination of pivotSimp, pivotgadgetSimp and cliffordSimp. On an empty diagram the loops over edges are undefined behaviour (c74_empty).
  `ZX.c74_loops_partial` (pcq), `ZX.c74_interiorClifford` (pcq), `ZX.c74_empty` (pcq).
* **C75 Gadget fusion preserves the linear map** — partial. The full statement is false: a gadget with a boundary leg (c75_boundary) and a vertex with two leaves (c75_leaves) change the map. Proved when vertices have at most one leaf and single legs are spiders.
  `ZX.c75_fuseGadget_partial` (pcq), `ZX.c75_boundary` (pcq), `ZX.c75_leaves` (pcq).
* **C76 if statements are imported with the condition written** — partial. Holds for single bits, their negations and whole registers (at most 64 bits) compared with a constant in second place or for (in)equality; constants in front flip the comparison, an index is ignored, negated comparisons and constants dereference null, a minus is read as a negation.
  `QASM.Cond.c76_if_partial` (pcq), `QASM.Cond.c76_constant_first` (pcq), `QASM.Cond.c76_index_ignored` (pcq), `QASM.Cond.c76_negated_comparison` (p), `QASM.Cond.c76_negate` (p).
* **C77 Gate calls are imported with their meaning** — partial. Soundness for every call except negctrl on gates with own controls and bodies that use a constant named like a parameter of another gate; both are refuted with witnesses. Undefined behaviour for control counts that wrap.
  `QASM.GateCall.c77_call_partial` (pcq), `QASM.GateCall.c77_unique` (pcq), `QASM.GateCall.c77_standard_gates` (pcq), `QASM.GateCall.c77_negctrl` (pcq), `QASM.GateCall.c77_scope` (pcq), `QASM.GateCall.c77_wraps` (pcq), `QASM.GateCall.c77_operands` (pq), `QASM.GateCall.c77_lookup` (pcq), `QASM.GateCall.c77_prefix_greedy` (pcq).
* **C78 Multi-controlled gates and names of controlled gates** — partial. All except mcx_vchain with one control, which is rejected.
  `QASM.GateCall.c78_mcx_partial` (pcq), `QASM.GateCall.c78_mcphase` (pcq), `QASM.GateCall.c78_names` (p), `QASM.GateCall.c78_vchain_one` (pcq).
* **C79 Type checking leaves the declarations alone** — partial. Kinds and the types of names that are neither indexed nor in a binary operator are kept; widths are not (three witnesses), and unknown indexed identifiers dereference null.
  `QASM.Cond.c79_types_partial` (pq), `QASM.Cond.c79_declared` (pq), `QASM.Cond.c79_whole_register` (pcq), `QASM.Cond.c79_bit` (p), `QASM.Cond.c79_measure` (p), `QASM.Cond.c79_unknown` (pq).
* **C80 Single-qubit gate fusion preserves the circuit** — partial. Preservation for circuits without single-qubit measurements, resets and classically controlled gates at top level, and for all circuits whenever the result is meaningful; exact condition for the exception; the code destroys a measurement followed by a gate and cancels gates around classically controlled blocks (witnesses).
  `Opt.c80_fusion_partial` (pcq), `Opt.c80_meaningful_partial` (pcq), `Opt.c80_throws` (pcq), `Opt.c80_fails_for_measurements` (pcq), `Opt.c80_fails_around_controlled_blocks` (pcq).
* **C81 Eliminating resets keeps the measurement statistics** — partial. Amplitudes and probabilities correspond for circuits of gates, measurements, resets, classically controlled gates and compound operations of these; the code does not rewire nested or classically controlled blocks, leaves resets in blocks before the first top-level reset, and throws with ancillary qubits (proved).
  `Opt.c81_amplitudes_partial` (pcq), `Opt.c81_probabilities_partial` (pcq), `Opt.c81_outcomes` (pcq), `Opt.c81_throws` (pcq), `Opt.c81_leaves_resets` (pcq), `Opt.c81_fails_for_nested_blocks` (pcq), `Opt.c81_fails_for_controlled_blocks` (pcq).
* **C82 Deferring measurements keeps the circuit** — partial. Preservation when no later operation acts on a measured qubit or writes its bit; the code moves measurements past gates on the measured qubit, ignores the kind of comparison, inserts controlled operations at the wrong place when a later operation touches the measured qubit, and skips every second of adjacent measurements (witnesses).
  `Opt.Defer.c82_preserves_partial` (pcq), `Opt.Defer.c82_one_partial` (pcq), `Opt.Defer.c82_rejects_resets` (pcq), `Opt.Defer.c82_rejects_conditional_resets` (pcq), `Opt.Defer.c82_rejects_registers` (pcq), `Opt.Defer.c82_skips` (pcq), `Opt.Defer.c82_fails_for_later_gates` (pcq), `Opt.Defer.c82_fails_for_comparisons` (pcq), `Opt.Defer.c82_fails_for_order` (pcq).
* **C83 Removing final measurements removes exactly the final ones** — partial. Exact characterisation and termination for circuits without measuring compound operations; meaning preserved when no remaining operation uses the bits. Counterexamples for used bits and compound operations; non-termination for a compound operation with a part without targets.
  `Opt.Final.c83_removes_exactly_partial` (pcq), `Opt.Final.c83_keeps_gates_partial` (pcq), `Opt.Final.c83_preserves_partial` (pcq), `Opt.Final.c83_fails_for_used_bits` (pcq), `Opt.Final.c83_fails_for_compounds` (pcq), `Opt.Final.c83_loops` (pcq).
* **C84 The ZX diagram of a circuit is the circuit's unitary** — partial. Linear map of the diagram, simplified diagram, totality and rejection for all circuits with permuted qubits and symbolic parameters; excluded are the gates for which the code is wrong, with counterexamples for ECR, XX+YY, negative controls, global phases, GPhase, tiny and huge parameters.
  `ZX.BuildProps.c84_build_partial` (pcq), `ZX.BuildProps.c84_simplified_partial` (pcq), `ZX.BuildProps.c84_total_partial` (pcq), `ZX.BuildProps.c84_rejected_partial` (pcq), `ZX.BuildProps.c84_ecr` (pcq), `ZX.BuildProps.c84_xxplusyy` (pcq), `ZX.BuildProps.c84_negative` (pcq), `ZX.BuildProps.c84_y` (pcq), `ZX.BuildProps.c84_constant` (pcq), `ZX.BuildProps.c84_gphase` (pcq), `ZX.BuildProps.c84_tiny` (pcq), `ZX.BuildProps.c84_huge` (pcq).
* **C85 Output permutations are propagated back to a matching initial layout** — partial. Proved for physical qubits numbered 0 to n-1; with gaps the code takes an element of an empty set (c85_gaps). The statement about meaning also leaves out classically controlled compound operations.
  `Opt.Backprop.c85_layout_partial` (pcq), `Opt.Backprop.c85_elide_partial` (pcq), `Opt.Backprop.c85_meaning_partial` (pcq), `Opt.Backprop.c85_gaps` (pcq).
* **C86 Deterministic noise applies the channel of its effects** — partial. c86_channel_partial excludes operations without qubits (undefined behaviour, c86_empty) and diagrams that skip a non-identity level above a used qubit, where the code is wrong (c86_skipped).
  `DD.c86_make` (pcq), `DD.c86_kraus` (pcq), `DD.c86_trace` (pcq), `DD.c86_channel_partial` (pcq), `DD.c86_empty` (pcq), `DD.c86_skipped` (pcq).
* **C87 Stochastic noise averages to the channel of its effects** — partial. Average and normalisation proved for probabilities in [0,1], at most one amplitude damping with no depolarisation before it, and (multi-qubit with damping) nonzero gate noise; outside these the code loses the state (c87_jump, c87_order) or accepts bad probabilities (c87_factor). Draws are independent uniform reals; the operation cache is not modelled.
  `DD.c87_make` (pcq), `DD.c87_average_partial` (pcq), `DD.c87_unit_partial` (pcq), `DD.c87_run` (pcq), `DD.c87_factor` (pcq), `DD.c87_jump` (pcq), `DD.c87_order` (pcq).
* **C88 Layers execute every operation once, in an order with the meaning of the circuit** — partial. Proved for every circuit of standard operations in which no operation is followed on a shared qubit by its inverse: construction succeeds, the executable set is exact (for commutable when no operation repeats on a qubit), no deadlock, every complete order has the meaning of the circuit. False in the code otherwise: x;x;s;sdg can be executed as x;s;x;sdg (c88_pairs), cx(2,0);cx(0,1);cx(1,2);cx(0,1) can deadlock (c88_stuck), a gate followed by a measurement throws (c88_measure). Compound operations are not covered.
  `Layer.c88_execute_partial` (pcq), `Layer.c88_exec_partial` (pcq), `Layer.c88_order_partial` (pcq), `Layer.c88_pairs` (pcq), `Layer.c88_stuck` (pcq), `Layer.c88_measure` (pcq).
* **C89 Sampled counts follow the distribution of independent runs of the circuit** — partial. The generating polynomial of the reported counts is proved to be that of independent runs: in full for circuits with mid-circuit measurements, resets or conditioned operations; for measurements at the end if no qubit is measured twice and no bit written twice; without measurements if the output permutation does not exchange qubits. The excluded cases are violated by the code (three counterexamples). Garbage qubits are not modelled.
  `Sim.c89_dynamic_partial` (pcq), `Sim.c89_static_partial` (pcq), `Sim.c89_no_measurements_partial` (pcq), `Sim.c89_total_partial` (pcq), `Sim.c89_qubit_twice` (pcq), `Sim.c89_bit_twice` (pcq), `Sim.c89_output_twice` (pcq).
* **C90 Collecting operations into blocks** — partial. Termination, conservation of operations and block sizes are proved for all circuits. The meaning is kept if no qubit is added to a block that stands before an operation on it: always for blocks of one qubit and for circuits that fit into one block. In general it is not: three gates on two qubits at a time are reordered wrongly; classically controlled compound operations are passed over.
  `Opt.Blocks.c90_total` (pcq), `Opt.Blocks.c90_same_operations` (pcq), `Opt.Blocks.c90_size` (pcq), `Opt.Blocks.c90_meaning_partial` (pcq), `Opt.Blocks.c90_one_qubit_partial` (pcq), `Opt.Blocks.c90_small_circuit_partial` (pcq), `Opt.Blocks.c90_meaning_fails` (pcq), `Opt.Blocks.c90_hidden` (pcq).
* **C91 Reordering operations keeps the order on every qubit and the meaning** — partial. Proved for circuits without classically controlled compound operations in which operations on different qubits share no classical bit that one of them writes; witnesses show that the others go wrong.
  `Opt.Reorder.c91_order_partial` (pcq), `Opt.Reorder.c91_throws` (pcq), `Opt.Reorder.c91_meaning_partial` (pcq), `Opt.Reorder.c91_unitary_partial` (pcq), `Opt.Reorder.c91_classical_fails` (pcq), `Opt.Reorder.c91_drops` (pcq), `Opt.Reorder.c91_hidden_ub` (pcq).
* **C92 Outputs and garbage qubits are read off the measurements** — partial. Proved when, within each measurement, qubits measured before come last, and first measurements write different bits. The code violates the property otherwise: the bit of a skipped qubit is given to the next one, shared bits are taken away again; measurements in compound operations are not seen.
  `Opt.IOMap.c92_outputs_partial` (pcq), `Opt.IOMap.c92_throws` (pcq), `Opt.IOMap.c92_injective_partial` (pcq), `Opt.IOMap.c92_skipped_bit` (pcq), `Opt.IOMap.c92_shared_bit` (pcq), `Opt.IOMap.c92_nested` (pcq).
* **C93 Stripping idle qubits keeps the layout of the others** — partial. Without force proved in full. With force it is violated when the logical qubit of an idle qubit is put out on another physical qubit: the entry stays and collides with another one or exceeds the number of qubits. Registers are not modelled.
  `Opt.Strip.c93_strip` (pcq), `Opt.Strip.c93_force_partial` (pcq), `Opt.Strip.c93_dense` (pcq), `Opt.Strip.c93_twice` (pcq), `Opt.Strip.c93_force_collides` (pcq), `Opt.Strip.c93_force_dangling` (pcq).
* **C94 Dynamic circuits are recognised** — proved. isDynamic decides the stated condition at any depth; a circuit that is not dynamic means its gates followed by its measurements. c94_barrier: a barrier on a measured qubit counts as dynamic (this is within the statement: a barrier is a standard operation).
  `Opt.Dynamic.c94_decides` (pcq), `Opt.Dynamic.c94_measure_last` (pcq), `Opt.Dynamic.c94_barrier` (pcq).
* **C95 Symbolic operations are instantiated to the gates they stand for** — partial. Instantiation is right except for u gates whose first angle is a number near pi/2 or whose first two angles are numbers near zero (shown to be lost). Inverting commutes with instantiating. Equality is shown to ignore type, qubits and further parameters; symbols within compound operations are shown to stay.
  `IR.Symb.c95_instantiate_partial` (pcq), `IR.Symb.c95_in_place` (pcq), `IR.Symb.c95_invert` (pcq), `IR.Symb.c95_invert_undoes` (pcq), `IR.Symb.c95_equals_refl` (pcq), `IR.Symb.c95_variable_free_partial` (pcq), `IR.Symb.c95_lost_p` (pcq), `IR.Symb.c95_lost_u2` (pcq), `IR.Symb.c95_twice` (pcq), `IR.Symb.c95_equals_unsound` (pcq), `IR.Symb.c95_nested` (pcq).
* **C96 Standard operations exported to OpenQASM are imported with the same meaning** — partial. Both exports keep the meaning of every operation that has one, except Peres gates. A Peres gate with positive controls is exported with its targets exchanged; one with a negative control loses the negation in OpenQASM 2; move cannot be read back. Printing and parsing of the text is not part of the model.
  `QASM.GateCall.c96_qasm3_partial` (pcq), `QASM.GateCall.c96_qasm2_partial` (pcq), `QASM.GateCall.c96_peres_exchanged` (pcq), `QASM.GateCall.c96_peres` (pcq), `QASM.GateCall.c96_peres_negative` (pcq), `QASM.GateCall.c96_peres_negative_meaning` (pcq), `QASM.GateCall.c96_move` (pcq).
* **C97 The OpenQASM scanner finds the tokens of a text** — partial. All texts of tokens except upper-case hexadecimal digits, the unit dt, a minus directly before a digit meant as an operator, and #dim, for which the negation is proved. Floating-point literals are kept as text.
  `QASM.Scanner.c97_scan_partial` (pcq), `QASM.Scanner.c97_unambiguous` (pcq), `QASM.Scanner.c97_next_partial` (pcq), `QASM.Scanner.c97_progress` (pcq), `QASM.Scanner.c97_characters` (pcq), `QASM.Scanner.c97_hex` (pcq), `QASM.Scanner.c97_minus` (pcq), `QASM.Scanner.c97_dt` (pcq), `QASM.Scanner.c97_dim` (pcq), `QASM.Scanner.c97_string` (pcq), `QASM.Scanner.c97_unknown` (pcq).
* **C98 Initial layout and output permutation survive export and import** — partial. Read back up to renumbering for all maps; the same maps if the logical qubits of both are consecutive. The negation is proved for output permutations with gaps, empty ones, and files with other comments of that form.
  `QASM.Scanner.c98_header` (pcq), `QASM.Scanner.c98_same_partial` (pcq), `QASM.Scanner.c98_garbage` (pcq), `QASM.Scanner.c98_none` (pcq), `QASM.Scanner.c98_comment` (pcq), `QASM.Scanner.c98_twice` (pcq), `QASM.Scanner.c98_recognised` (p).
* **C99 Garbage qubits are summed over** — partial. Squared magnitudes proved for all diagrams. Without normalizeWeights the entries keep phases (c99_phases); with it terminals are undefined behaviour or keep their weight (c99_terminal, c99_identity). Circuits as in C46, C47, C71.
  `DD.c99_vector` (pcq), `DD.c99_vector_magnitudes_partial` (pcq), `DD.c99_matrix` (pcq), `DD.c99_matrix_inverse` (pcq), `DD.c99_matrix_magnitudes_partial` (pcq), `DD.c99_phases` (pcq), `DD.c99_identity` (pcq), `DD.c99_terminal` (pcq), `Sim.c99_simulate_partial` (pcq), `Sim.c99_functionality_partial` (pcq), `Sim.c99_recursive_partial` (pcq).
* **C100 Serialised diagrams are read back** — partial. Proved for all diagrams other than terminals; these are read back as zero (disproved with witness). Numbers and line syntax are not modelled.
  `DD.c100_vector_partial` (pcq), `DD.c100_matrix_partial` (pcq), `DD.c100_terminal` (pcq).
* **C101 Transfer to another package keeps the diagram** — partial. Proved for states of at least three qubits; disproved for smaller states (undefined behaviour) and for matrices (wrong result), with witnesses.
  `DD.c101_vector_partial` (pcq), `DD.c101_empty_stack` (pcq), `DD.c101_matrix` (pcq).
* **C102 OpenQASM programs are parsed as written** — partial. Every text of a program is read as that program, and without includes nothing else is read (the code also takes a comma after the last of a list, an empty index and an empty barrier). Fails for an include directly after that of stdgates.inc or at the end, for a gate with empty parentheses, for an integer version, and for a measurement without a result (all proved). Indices inside of expressions are not modelled.
  `QASM.Program.c102_program_partial` (pcq), `QASM.Program.c102_exact` (pcq), `QASM.Program.c102_unambiguous` (pcq), `QASM.Program.c102_else` (pcq), `QASM.Program.c102_text_partial` (pcq), `QASM.Program.c102_kinds` (pcq), `QASM.Program.c102_include_missing` (pq), `QASM.Program.c102_include_malformed` (pq), `QASM.Program.c102_include_twice` (pq), `QASM.Program.c102_include_last` (pq), `QASM.Program.c102_include_nested` (pq), `QASM.Program.c102_gate_parentheses` (pq), `QASM.Program.c102_version` (p), `QASM.Program.c102_measure` (pcq).
* **C103 The text of an exported circuit is read as the circuit** — partial. Registers named as keywords, types without a name in OpenQASM and the empty circuit in OpenQASM 3 are excluded, and proved not to be read. The digits of a printed number are arbitrary.
  `QASM.Print.c103_text_partial` (pcq), `QASM.Print.c103_same_text` (pcq), `QASM.Print.c103_measures` (pcq), `QASM.Print.c103_gates3` (pcq), `QASM.Print.c103_gates2` (pcq), `QASM.Print.c103_included` (pcq), `QASM.Print.c103_keyword` (pcq), `QASM.Print.c103_empty` (pcq), `QASM.Print.c103_unnamed` (pcq), `QASM.Print.c103_unnamed_text` (pcq).
* **C104 The type check accepts exactly the well-typed OpenQASM programs** — partial. Proved for expressions whose identifiers are known and have separate types, and for programs without branches whose expressions are literals. The whole claim is false: c104_narrowed, c104_widened and c104_not_rejected (indexing or comparing changes the type of the register), c104_null (null pointer), c104_builtins, c104_twice are witnesses.
  `QASM.TypeCheck.c104_expression_partial` (pcq), `QASM.TypeCheck.c104_condition_partial` (pcq), `QASM.TypeCheck.c104_program_partial` (pcq), `QASM.TypeCheck.c104_kept_partial` (pcq), `QASM.TypeCheck.c104_declared` (pcq), `QASM.TypeCheck.c104_no_ub_partial` (pcq), `QASM.TypeCheck.c104_narrowed` (p), `QASM.TypeCheck.c104_widened` (p), `QASM.TypeCheck.c104_not_rejected` (p), `QASM.TypeCheck.c104_null` (p), `QASM.TypeCheck.c104_builtins` (p), `QASM.TypeCheck.c104_twice` (p).
* **C105 An exported circuit is imported again as the same circuit** — partial. Proved for circuits with at least one qubit and one output, whose registers have distinct names that are neither keywords nor constants, for the operations of C63 and C96. It fails for registers that share a name and for registers named as a constant.
  `QASM.Import.c105_import_partial` (pcq), `QASM.Import.c105_gate` (pcq), `QASM.Import.c105_standard` (pcq), `QASM.Import.c105_same_name` (pcq), `QASM.Import.c105_builtin_name` (pcq).
* **C106 Removing operations removes exactly the operations asked for** — partial. Exactness and idempotence are proved for circuits in which no compound operation is in another, and fail otherwise (c106_nested); that nothing else is lost and that the meaning is kept is proved for all circuits.
  `Opt.c106_exact_partial` (pcq), `Opt.c106_between` (pcq), `Opt.c106_compound` (pcq), `Opt.c106_top_partial` (pcq), `Opt.c106_again_partial` (pcq), `Opt.c106_meaning` (pcq), `Opt.c106_identities` (pcq), `Opt.c106_nested` (pcq).
* **C107 Graph-like and adjoint ZX diagrams denote what they should** — partial. toGraphlike and adjoint. Partial: parallel edges break toGraphlike (c107_parallel), a global phase breaks adjoint (c107_global).
  `ZX.c107_graphlike_partial` (pcq), `ZX.c107_parallel` (pcq), `ZX.c107_adjoint_partial` (pcq), `ZX.c107_adjoint_phase` (pcq), `ZX.c107_twice` (pcq), `ZX.c107_global` (pcq).
* **C108 Concatenation of ZX diagrams is composition of linear maps** — partial. Proved for all pairs of diagrams whose outputs (of the first) and inputs (of the second) are ends of single edges leading to other vertices, when the second has no global phase; with a global phase the result is off by its square. Fails for a second diagram with a global phase and for inputs that are joined with each other. Concatenation of a diagram with itself (the same object) is not covered.
  `ZX.c108_concat_partial` (pcq), `ZX.c108_phase_partial` (pcq), `ZX.c108_rejected` (pcq), `ZX.c108_global` (pcq), `ZX.c108_cup` (pcq).
* **C109 isIdentity accepts exactly the identity wires** — partial. The diagrams that are accepted are characterised, and their linear maps computed, for all diagrams. They are the identity if the edges are plain and there are no spiders. Fails for a Hadamard edge between an input and an output, and for a spider with phase pi without edges. With fewer outputs than inputs the list of outputs may be read beyond its end (c109_few).
  `ZX.c109_iff` (pcq), `ZX.c109_total` (pcq), `ZX.c109_few` (pcq), `ZX.c109_entry` (pcq), `ZX.c109_sound_partial` (pcq), `ZX.c109_hadamard` (pcq), `ZX.c109_scalar` (pcq).
* **C110 makeAncilla projects a wire on the state 0** — partial. The linear map of the result is proved for all diagrams and all inputs and outputs. Fails: the qubits of the remaining inputs are not renumbered, so that concatenation with the result is undefined.
  `ZX.c110_ancilla_partial` (pcq), `ZX.c110_edges` (pcq), `ZX.c110_stale` (pcq).
* **C111 Fidelity of measurement outcomes** — partial. Proved for all states with at least one qubit and no permutation, or one that is unchanged when the qubits are counted from the other end; what is computed otherwise is proved as well. Fails for other permutations (exchange of two of three qubits, dropped qubits) and for a state without qubits. Exact arithmetic.
  `DD.c111_plain_partial` (pcq), `DD.c111_mirror_partial` (pcq), `DD.c111_general` (pcq), `DD.c111_identity` (pcq), `DD.c111_swap` (pcq), `DD.c111_drop` (pcq), `DD.c111_terminal` (pcq).
* **C112 Test for closeness to the identity** — partial. Bound of the entries off the diagonal for all tolerances and garbage qubits; exact for diagonal matrices; exact for tolerance 0 with the check of the diagonal. The weight of the root is ignored by the code: the zero matrix and multiples of the identity are accepted.
  `DD.c112_small_partial` (pcq), `DD.c112_diagonal` (pcq), `DD.c112_accepts` (pcq), `DD.c112_one_partial` (pcq), `DD.c112_identity` (pcq), `DD.c112_zero` (pcq), `DD.c112_factor` (pcq).
* **C113 Removal of disconnected spiders** — partial. Termination, the removed and the kept vertices and the exact factor of the linear map are proved for all diagrams; the factor is positive only if the removed vertices denote a positive number. Counterexamples with factor 0 and with a lost phase.
  `ZX.c113_removes` (pcq), `ZX.c113_val` (pcq), `ZX.c113_same_partial` (pcq), `ZX.c113_nothing_partial` (pcq), `ZX.c113_zero` (pcq), `ZX.c113_phase` (pcq).
* **C114 Iterators over ZX diagrams** — partial. Vertices and neighbours for all diagrams; edges for all diagrams with a vertex (the empty diagram is undefined behaviour); the adjacency matrix for diagrams without deleted vertices (otherwise rows that do not exist are written).
  `ZX.c114_vertices` (pcq), `ZX.c114_edges_partial` (pcq), `ZX.c114_empty` (pcq), `ZX.c114_adj_partial` (pcq), `ZX.c114_connected` (pcq), `ZX.c114_deleted` (pcq).
* **C115 Interaction graph of a layer** — partial. When the construction throws, and the graph otherwise, for all circuits and all orders of the executable operations; always succeeds for layers constructed without commutation (under the assumptions of C88). Fails when two executable operations of the type act on the same qubits. Not modelled: compound and classically controlled operations.
  `Layer.c115_throws` (pcq), `Layer.c115_graph_partial` (pcq), `Layer.c115_layer_partial` (pcq), `Layer.c115_executables` (pcq), `Layer.c115_twice` (pcq), `Layer.c115_thrice` (pcq), `Layer.c115_is` (pcq), `Layer.c115_missing` (pcq).
* **C116 Random Clifford circuits** — partial. Every index gives a Clifford operation; for one qubit each exactly once; for two qubits the indices below 5760 are pairwise different. It fails from 5760 on: indices are repeated and an operation is never produced (c116_repeated, c116_missing), and the range of the indices is one too long (c116_inclusive). Random numbers are given.
  `Alg.Clifford.c116_clifford` (pcq), `Alg.Clifford.c116_one` (pcq), `Alg.Clifford.c116_one_complete` (pq), `Alg.Clifford.c116_two_partial` (pcq), `Alg.Clifford.c116_missing` (pcq), `Alg.Clifford.c116_repeated` (–), `Alg.Clifford.c116_inclusive` (–), `Alg.Clifford.c116_qubits` (pcq).
* **C117 Rounding of phases to multiples of π/2** — partial. Phases are rounded only to multiples closer than the tolerance, the angle changes by less than the tolerance, and for tolerances up to 1/4 phases close to 0, π/2, -π/2 and π are rounded to them. It fails for phases just above -π (c117_minus_pi) and, with tolerances above 1/2, for the choice of the nearest multiple (c117_large_tolerance). Multiples of π/2 stay and rounding is idempotent for tolerances up to 1/2. Doubles are real numbers.
  `ZX.c117_sound` (pcq), `ZX.c117_angle` (pcq), `ZX.c117_complete_partial` (pcq), `ZX.c117_minus_pi` (pcq), `ZX.c117_fixed` (pcq), `ZX.c117_idempotent` (pcq), `ZX.c117_large_tolerance` (pcq), `ZX.c117_diagram` (pcq).
* **C118 Fractions for numbers** — partial. The loop ends with a fraction in lowest terms and an allowed denominator; if a fraction lies within the tolerance, the result does and has the least denominator, for tolerances below 1/(2(max+1)), in particular the default. It fails that the result is the closest fraction otherwise (c118_not_closest) and that the denominator is least for large tolerances (c118_tolerance). Doubles are real numbers, uint64 natural numbers.
  `DD.Fraction.c118_lowest` (pcq), `DD.Fraction.c118_best_partial` (pcq), `DD.Fraction.c118_default` (pcq), `DD.Fraction.c118_not_closest` (pcq), `DD.Fraction.c118_tolerance` (pcq), `DD.Fraction.c118_no_denominator` (pcq).
* **C119 AOD operations** — partial. All but the name after inversion, which fails for activations and deactivations (c119_inverted_text), and the text without operations or qubits (c119_empty_text). Controls are not modelled; numbers are real, and how they and the qubits are printed is given.
  `NA.Aod.c119_invert_twice` (pcq), `NA.Aod.c119_invert` (pcq), `NA.Aod.c119_max_distance` (pcq), `NA.Aod.c119_lists` (pcq), `NA.Aod.c119_name` (pcq), `NA.Aod.c119_invert_name_partial` (pcq), `NA.Aod.c119_text` (pcq), `NA.Aod.c119_inverted_text` (pcq), `NA.Aod.c119_empty_text` (pcq).
* **C120 Arithmetic, printing and hashing of complex numbers** — partial. Real numbers for double. Proved: product, quotient, the form in which real numbers are printed and their value, the hash of numbers that are not negative, and printing of complex numbers except those whose real part is within the tolerance of 0 while the imaginary part is not but is close to it or its opposite; for these, for hashes of negative numbers and for hashes of approximately equal numbers the property fails and the negation is proved. Not modelled: the characters printed, murmur64 and combineHash.
  `DD.Print.c120_mul` (pcq), `DD.Print.c120_div` (pcq), `DD.Print.c120_form` (pcq), `DD.Print.c120_sign` (pcq), `DD.Print.c120_real` (pcq), `DD.Print.c120_complex_partial` (pcq), `DD.Print.c120_tiny` (pcq), `DD.Print.c120_hash` (pcq), `DD.Print.c120_hash_negative` (pcq), `DD.Print.c120_hash_equal` (pcq).
* **C121 Ancillary and garbage flags** — partial. Flags and numbers proved for all histories of operations on qubits of the circuit without unifyQuantumRegisters for circuits with ancillary qubits and without reset; for these two, and for the size of the vectors after removeQubit, the property fails and the negation is proved. A removed qubit in an ancillary register is assumed to be flagged. Registers, layouts and the exceptions that depend on them are not part of this model.
  `IR.Flags.c121_empty` (pcq), `IR.Flags.c121_addReg` (pcq), `IR.Flags.c121_refused` (p), `IR.Flags.c121_addAncReg` (pcq), `IR.Flags.c121_addAnc` (pcq), `IR.Flags.c121_addQubit` (pcq), `IR.Flags.c121_remove_partial` (pcq), `IR.Flags.c121_setAnc` (pcq), `IR.Flags.c121_setGarb` (pcq), `IR.Flags.c121_setAncs` (pcq), `IR.Flags.c121_setGarbs` (pcq), `IR.Flags.c121_unify_none` (–), `IR.Flags.c121_history_partial` (pcq), `IR.Flags.c121_remove_size` (–), `IR.Flags.c121_unify` (pcq), `IR.Flags.c121_reset` (–), `IR.Flags.c121_reset_none` (pcq).
* **C122 Every qubit lies in one register when qubits are added and removed** — partial. Removal and joining proved for all maps of registers with different names in which there is no part (name with _l or _h appended) of a register next to the register; these assumptions are preserved. Addition proved if moreover no register has the name of the new one or of a part of it; without this the property fails and the negation is proved, as it is for registers that the user has named like parts.
  `IR.Registers.c122_empty` (pq), `IR.Registers.c122_remove` (pcq), `IR.Registers.c122_consolidate` (pcq), `IR.Registers.c122_add_partial` (pcq), `IR.Registers.c122_lost` (–), `IR.Registers.c122_names` (–), `IR.Registers.c122_parts` (pcq).
* **C123 All outputs of a circuit are measured** — partial. Fails for circuits with gaps in the numbers of the outputs or of the qubits (c123_gap, c123_measureAll_gap); otherwise proved. The output permutation is any list of entries; numbers of qubits and bits are natural numbers.
  `IR.MeasureAll.c123_qubits` (pq), `IR.MeasureAll.c123_append_returns` (pq), `IR.MeasureAll.c123_append_ops` (pq), `IR.MeasureAll.c123_append_throws` (pq), `IR.MeasureAll.c123_append_partial` (pq), `IR.MeasureAll.c123_gap` (pcq), `IR.MeasureAll.c123_measureAll_new` (pq), `IR.MeasureAll.c123_measureAll_old` (pq), `IR.MeasureAll.c123_measureAll_gap` (pq).
* **C124 The depth of a circuit is the length of its longest path** — partial. Proved for circuits whose classically controlled operations are gates or single measurements and resets; fails for classically controlled compound operations and barriers, without qubits and after removing qubits (witnesses).
  `IR.Depth.c124_defined_partial` (pcq), `IR.Depth.c124_depth_partial` (pcq), `IR.Depth.c124_classic` (pq), `IR.Depth.c124_barrier` (pq), `IR.Depth.c124_no_qubits` (pq), `IR.Depth.c124_removed` (pq).
* **C125 Operations are counted, last operations found and circuits made of compound operations** — partial. Proved without compound operations in compound operations (counts), for operations on qubits below the number of qubits (last operation), and without classically controlled compound operations, nested measurements and classical control (circuit of a compound operation); fails otherwise (witnesses).
  `IR.Count.c125_individual_partial` (p), `IR.Count.c125_individual_nested` (p), `IR.Count.c125_single_partial` (pq), `IR.Count.c125_single_barrier` (p), `IR.Count.c125_single_nested` (p), `IR.Count.c125_last_partial` (pq), `IR.Count.c125_last_end` (pq), `IR.Count.c125_last_removed` (pq), `IR.Count.c125_from_qubits_partial` (pq), `IR.Count.c125_from_bits_partial` (pq), `IR.Count.c125_from_nested` (p), `IR.Count.c125_from_classic` (p).
* **C126 The cache of noise operations is transparent** — partial. Proved for one noise model per package; with two the second applies the operations of the first, and a table with the default configuration throws (witnesses). makeGateDD is any function of the matrix and the target.
  `DD.NoiseCache.c126_transparent_partial` (p), `DD.NoiseCache.c126_defined` (p), `DD.NoiseCache.c126_found` (p), `DD.NoiseCache.c126_clear` (pq), `DD.NoiseCache.c126_resize` (p), `DD.NoiseCache.c126_two_models` (p), `DD.NoiseCache.c126_default` (p).
* **C127 Indices, equality and hash of registers** — partial. Indices proved; the end index of an empty register is wrong, and equality ignores the start, unlike the hash (witnesses).
  `IR.Register.c127_contains` (pcq), `IR.Register.c127_local` (pcq), `IR.Register.c127_global` (pcq), `IR.Register.c127_inverse` (pcq), `IR.Register.c127_end_partial` (pcq), `IR.Register.c127_end_empty` (p), `IR.Register.c127_equal_partial` (p), `IR.Register.c127_equal_other_qubits` (pq), `IR.Register.c127_exchanged` (–), `IR.Register.c127_registers` (pq).
