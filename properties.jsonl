{"id": "C01", "title": "Union-find answers connectivity", "statement": "After any sequence of unionSet calls on a DisjointSet built from a list of elements, findSet(a) == findSet(b) holds exactly when a and b are linked by a chain of the unions performed, and findSet itself never changes that answer.", "quantifier": "for every element list, every sequence of findSet/unionSet calls on elements of the list, every pair a,b", "why_tests_cant": "unbounded histories; path compression rewrites parents during reads, so a bad interleaving of reads and unions can be arbitrarily long", "anchors": ["include/mqt-core/datastructures/DisjointSet.hpp: DisjointSet::findSet, DisjointSet::unionSet"]}
{"id": "C02", "title": "Directed graph bookkeeping equals the edge set", "statement": "After any sequence of addVertex/addEdge calls, isEdge(u,v) is true exactly for the edges that were added, getNEdges is the number of distinct edges, and getInDegree/getOutDegree are the number of distinct edges into/out of the vertex; repeating an addEdge changes nothing.", "quantifier": "for every history of addVertex/addEdge calls and every pair of vertices", "why_tests_cant": "unbounded histories, duplicates and self loops in any order", "anchors": ["include/mqt-core/datastructures/DirectedGraph.hpp: addVertex, addEdge, getInDegree, getOutDegree, isEdge"]}
{"id": "C03", "title": "DAG reachability and cycle rejection", "statement": "In a DirectedAcyclicGraph, isReachable(u,v) is true exactly when a directed path (possibly empty) of added edges leads from u to v, and addEdge throws exactly when the new edge would close a cycle.", "quantifier": "for every history of addVertex/addEdge calls and all u,v", "why_tests_cant": "needs all insertion orders of edges; the incremental closure update can only be wrong for particular orders", "anchors": ["include/mqt-core/datastructures/DirectedAcyclicGraph.hpp: addEdge, isReachable"]}
{"id": "C04", "title": "Topological order is a topological order", "statement": "orderTopologically returns every vertex exactly once and lists u before v whenever there is an edge u->v, for every acyclic graph.", "quantifier": "for every acyclic graph reachable through the API", "why_tests_cant": "quantifies over all graphs; tests check a few", "anchors": ["include/mqt-core/datastructures/DirectedAcyclicGraph.hpp: orderTopologically"]}
{"id": "C05", "title": "Undirected graph is symmetric and counts its edges", "statement": "After any history of addVertex/addEdge, adjacency is symmetric, getEdge returns the attribute that was added for that unordered pair, getNEdges is the number of distinct unordered pairs and getDegree the number of incident edges.", "quantifier": "for every history and every pair of vertices", "why_tests_cant": "triangular index arithmetic depends on the insertion order of the two endpoints; unbounded histories", "anchors": ["include/mqt-core/datastructures/UndirectedGraph.hpp: addVertex, addEdge, getEdge, getNeighbours, isAdjacent"]}
{"id": "C06", "title": "Symmetric matrix reads are symmetric and read-your-writes", "statement": "For a SymmetricMatrix, m(i,j) and m(j,i) always denote the same cell, distinct unordered pairs denote distinct cells, and a read returns the last value written to its unordered pair.", "quantifier": "for every size, every sequence of writes and every index pair in range", "why_tests_cant": "unbounded sizes and write histories", "anchors": ["include/mqt-core/datastructures/SymmetricMatrix.hpp: operator()"]}
{"id": "C07", "title": "Neutral-atom validation accepts only physically consistent programs", "statement": "If NAComputation::validate returns true, then along the program every load takes only atoms that are not loaded, every store and move takes only loaded atoms, no operation names an atom twice, and after every shuttling operation the relative row/column order of the atoms moved together is preserved.", "quantifier": "for every neutral-atom program and every prefix of it", "why_tests_cant": "all programs; the checker is itself the oracle used in tests", "anchors": ["src/na/NAComputation.cpp: NAComputation::validate, getLocationOfAtomAfterOperation", "include/mqt-core/na/operations/*.hpp"]}
{"id": "C08", "title": "Atom locations are ordered consistently", "statement": "The comparison operators of Location describe one total order: a>=b is b<=a, exactly one of a<b, a==b, a>b holds, and < is transitive.", "quantifier": "for every pair/triple of locations", "why_tests_cant": "quantifies over all coordinates", "anchors": ["include/mqt-core/na/entities/Location.hpp: operator<, operator>, operator<=, operator>="]}
{"id": "C09", "title": "Location after an operation is the last target of the atom", "statement": "getLocationOfAtomAfterOperation(atom, op) is the initial location of the atom overridden by the target of the last shuttling operation at or before op that mentions the atom.", "quantifier": "for every program, atom and operation of the program", "why_tests_cant": "unbounded program length", "anchors": ["src/na/NAComputation.cpp: getLocationOfAtomAfterOperation"]}
{"id": "C10", "title": "Memory manager never hands out a live entry", "statement": "Over any history of get / returnEntry, an entry handed out by get is never one that is currently in use, and the usage statistics equal the number of entries in use.", "quantifier": "for every history of get/returnEntry calls in which only live entries are returned, every chunk size and growth factor", "why_tests_cant": "aliasing appears only for particular alloc/free interleavings across chunk boundaries", "anchors": ["src/dd/MemoryManager.cpp: get, returnEntry, getEntryFromAvailableList, getEntryFromChunk, allocateNewChunk"]}
{"id": "C11", "title": "Unique table stores each node once", "statement": "Two lookups of structurally equal nodes return the same node as long as it has not been collected in between; at no time are there two structurally equal nodes in the table; lookup never returns a node that differs from the one asked for.", "quantifier": "for every history of lookups, reference count changes and garbage collections, and every hash function", "why_tests_cant": "depends on hash collisions and bucket chains over unbounded histories", "anchors": ["include/mqt-core/dd/UniqueTable.hpp: lookup, searchTable, nodesAreEqual", "src/dd/UniqueTable.cpp: garbageCollect"]}
{"id": "C12", "title": "Garbage collection never frees a reachable node", "statement": "If a client balances incRef/decRef on its root edges, garbage collection reclaims no node that is reachable from a root with a positive reference balance, and every node that is reclaimed is unreachable from all such roots.", "quantifier": "for every acyclic node graph and every balanced history of incRef/decRef/collect calls", "why_tests_cant": "counts propagate to children only at the 0/1 transition; a leak or premature free needs a particular sharing pattern", "anchors": ["include/mqt-core/dd/Package.hpp: incRef, decRef", "src/dd/UniqueTable.cpp: incRef, decRef, garbageCollect", "include/mqt-core/dd/Node.hpp"]}
{"id": "C13", "title": "Compute tables are transparent", "statement": "A compute-table lookup returns a result only if that very result was the last one inserted for exactly these operands since the last clear; hence memoising a function through the table never changes its value.", "quantifier": "for every history of insert/lookup/clear, every hash function and table size", "why_tests_cant": "collisions overwrite slots; only particular key sequences reveal a wrong hit", "anchors": ["include/mqt-core/dd/ComputeTable.hpp: insert, lookup, clear", "include/mqt-core/dd/UnaryComputeTable.hpp: insert, lookup, clear"]}
{"id": "C14", "title": "No cached result outlives the nodes it mentions", "statement": "After Package::garbageCollect has reclaimed nodes, no compute table still answers a lookup with an entry whose key or result mentions a reclaimed node.", "quantifier": "for every package state and every set of collected nodes", "why_tests_cant": "a stale entry is only harmful when the memory is reused for a different node later", "anchors": ["src/dd/Package.cpp: Package::garbageCollect, clearComputeTables"]}
{"id": "C15", "title": "Real-number table returns a value within tolerance, stably", "statement": "Looking up a real number returns an entry whose value differs from the number by at most the tolerance (with the sign of the number), and looking the same number up again without collection in between returns the same entry.", "quantifier": "for every table content reachable through lookups and every number", "why_tests_cant": "bucket-border cases need particular values near multiples of 1/65536", "anchors": ["src/dd/RealNumberUniqueTable.cpp: lookup, lookupNonNegative, findOrInsert, insertFront, insertBack"]}
{"id": "C16", "title": "Sign-tagged real-number pointers", "statement": "Flipping the sign tag twice is the identity, the value of a tagged pointer is minus the value of the aligned pointer, and tagging never changes the aligned pointer.", "quantifier": "for every aligned pointer", "why_tests_cant": "bit-level identity over all addresses", "anchors": ["src/dd/RealNumber.cpp: getAlignedPointer, getNegativePointer, flipPointerSign, val"]}
{"id": "C17", "title": "Operation type names round-trip and flags agree with the mathematics", "statement": "opTypeFromString(toString(t)) == t for every gate type that can be written to a file; the diagonal flag holds exactly for types whose matrix is diagonal; flipping the inverse flag yields the type of the inverse gate.", "quantifier": "for every operation type (and every parameter value for the matrix part)", "why_tests_cant": "the matrix part quantifies over all real parameters", "anchors": ["include/mqt-core/ir/operations/OpType.hpp: toString, opTypeFromString, isDiagonalGate", "include/mqt-core/ir/operations/OpType.inc"]}
{"id": "C18", "title": "Every gate matrix is unitary", "statement": "For every gate type and every parameter vector of the documented length, the matrix used by the simulator is unitary.", "quantifier": "for every gate type and all real parameters", "why_tests_cant": "all real parameters", "anchors": ["src/dd/GateMatrixDefinitions.cpp: opToSingleQubitGateMatrix, opToTwoQubitGateMatrix"]}
{"id": "C19", "title": "invert() yields the inverse gate", "statement": "Applying an operation and then its inverted copy leaves every state unchanged (including controls), for every gate type that supports inversion.", "quantifier": "for every supported gate type, all real parameters, all target/control choices, all states", "why_tests_cant": "all real parameters and states", "anchors": ["src/ir/operations/StandardOperation.cpp: StandardOperation::invert", "src/dd/Operations.cpp: getStandardOperationDD (inverse)"]}
{"id": "C20", "title": "Commutation test is sound", "statement": "If two standard operations are reported to commute at every qubit they share, then applying them in either order has the same effect on every state.", "quantifier": "for every pair of operations, all parameters, controls and targets, all states", "why_tests_cant": "all states and parameters; the rule table has many combinations", "anchors": ["src/ir/operations/StandardOperation.cpp: commutesAtQubit"]}
{"id": "C21", "title": "Gate canonicalisation preserves the gate", "statement": "When a u3/u2/u1 gate is constructed, the canonical gate that is stored (H, S, T, V, RX, ...) has the same effect, up to global phase where documented, as the requested one.", "quantifier": "for all real angle triples that match a rule exactly", "why_tests_cant": "all real angles", "anchors": ["src/ir/operations/StandardOperation.cpp: parseU3, parseU2, parseU1, checkUgate"]}
{"id": "C22", "title": "Inverting a circuit undoes it", "statement": "QuantumComputation::invert turns a circuit into one that maps every output state back to the input state.", "quantifier": "for every unitary circuit and every state", "why_tests_cant": "all circuits and states", "anchors": ["src/ir/QuantumComputation.cpp: invert", "src/ir/operations/CompoundOperation.cpp: invert"]}
{"id": "C23", "title": "SWAP reconstruction preserves the circuit's action", "statement": "CircuitOptimizer::swapReconstruction returns a circuit with the same action on every state.", "quantifier": "for every circuit and every state", "why_tests_cant": "all circuits; the pass matches gates through a per-qubit DAG", "anchors": ["src/circuit_optimizer/CircuitOptimizer.cpp: swapReconstruction, addToDag"]}
{"id": "C24", "title": "CNOT cancellation preserves the circuit's action", "statement": "CircuitOptimizer::cancelCNOTs returns a circuit with the same action on every state.", "quantifier": "for every circuit and every state", "why_tests_cant": "all circuits; matching through a per-qubit DAG with in-place rewriting", "anchors": ["src/circuit_optimizer/CircuitOptimizer.cpp: cancelCNOTs"]}
{"id": "C25", "title": "SWAP decomposition preserves the circuit's action", "statement": "CircuitOptimizer::decomposeSWAP replaces SWAP gates by CNOTs (and H for directed architectures) without changing the action on any state.", "quantifier": "for every circuit, both architecture modes, every state", "why_tests_cant": "all circuits and states", "anchors": ["src/circuit_optimizer/CircuitOptimizer.cpp: decomposeSWAP"]}
{"id": "C26", "title": "MCX to MCZ replacement preserves the circuit's action", "statement": "CircuitOptimizer::replaceMCXWithMCZ does not change the action on any state.", "quantifier": "for every circuit and every state", "why_tests_cant": "all circuits and states", "anchors": ["src/circuit_optimizer/CircuitOptimizer.cpp: replaceMCXWithMCZ"]}
{"id": "C27", "title": "Removing diagonal gates before measurements is invisible", "statement": "After removeDiagonalGatesBeforeMeasure, the joint probability of every measurement outcome is unchanged.", "quantifier": "for every circuit ending in measurements, every input state and every outcome", "why_tests_cant": "all circuits and states", "anchors": ["src/circuit_optimizer/CircuitOptimizer.cpp: removeDiagonalGatesBeforeMeasure"]}
{"id": "C28", "title": "Permutation elision preserves the circuit", "statement": "elidePermutations returns a circuit without uncontrolled SWAPs that has the same action on every state once its changed output permutation is taken into account.", "quantifier": "for every circuit and every state", "why_tests_cant": "all circuits; renaming must be threaded through every later operation", "anchors": ["src/circuit_optimizer/CircuitOptimizer.cpp: elidePermutations", "src/ir/operations/Operation.cpp: apply(Permutation)"]}
{"id": "C29", "title": "Flattening preserves the operation sequence", "statement": "flattenOperations replaces compound operations by their contents in order, at every nesting depth, so the executed sequence of elementary operations is unchanged.", "quantifier": "for every circuit with arbitrarily nested compound operations", "why_tests_cant": "unbounded nesting", "anchors": ["src/circuit_optimizer/CircuitOptimizer.cpp: flattenOperations"]}
{"id": "C30", "title": "A copied classically controlled operation keeps its condition", "statement": "Copying a ClassicControlledOperation (or a circuit containing one) yields an operation that fires for exactly the same classical values.", "quantifier": "for every comparison kind, register value and expected value", "why_tests_cant": "quantifies over comparison kinds and values", "anchors": ["include/mqt-core/ir/operations/ClassicControlledOperation.hpp", "src/ir/operations/ClassicControlledOperation.cpp"]}
{"id": "C31", "title": "Equal operations act equally", "statement": "If Operation::equals reports two standard operations equal, they act identically on every state.", "quantifier": "for every pair of standard operations and every state", "why_tests_cant": "all operations and states", "anchors": ["src/ir/operations/Operation.cpp: Operation::equals"]}
{"id": "C32", "title": "Qubit layout stays a bijection", "statement": "Through any history of adding registers, ancillas and qubits and removing qubits, the initial layout maps distinct physical qubits to distinct logical qubits, and the output permutation never assigns one logical qubit to two physical qubits.", "quantifier": "for every history of register/qubit additions and removals", "why_tests_cant": "unbounded histories", "anchors": ["src/ir/QuantumComputation.cpp: addQubitRegister, addAncillaryRegister, addQubit, removeQubit"]}
{"id": "C33", "title": "Node normalisation preserves the represented vector and matrix", "statement": "Creating a vector or matrix DD node from child edges yields an edge that represents exactly the vector/matrix with those sub-blocks; the resulting vector node has unit 2-norm children weights and identical inputs yield identical outputs.", "quantifier": "for every tuple of child edges (exact arithmetic)", "why_tests_cant": "all complex weights", "anchors": ["src/dd/CachedEdge.cpp: normalize", "src/dd/Edge.cpp: normalize", "include/mqt-core/dd/Package.hpp: makeDDNode"]}
{"id": "C34", "title": "Decision diagrams are canonical", "statement": "Two vector DDs built by the package that represent the same vector are the same DD (same root and same root weight).", "quantifier": "for every pair of DDs over the same number of qubits (exact arithmetic)", "why_tests_cant": "all vectors of all sizes", "anchors": ["include/mqt-core/dd/Package.hpp: makeDDNode", "src/dd/CachedEdge.cpp: normalize"]}
{"id": "C35", "title": "DD addition is vector/matrix addition", "statement": "add(x,y) represents the sum of the vectors (matrices) represented by x and y, including when matrix nodes skip identity levels.", "quantifier": "for every pair of DDs (exact arithmetic)", "why_tests_cant": "all DD shapes, including skipped levels at different heights", "anchors": ["include/mqt-core/dd/Package.hpp: add, add2"]}
{"id": "C36", "title": "DD multiplication is the matrix product", "statement": "multiply(x,y) represents the matrix-vector (matrix-matrix) product of what x and y represent.", "quantifier": "for every pair of DDs over the same qubits (exact arithmetic)", "why_tests_cant": "all DD shapes, including skipped levels", "anchors": ["include/mqt-core/dd/Package.hpp: multiply, multiply2"]}
{"id": "C37", "title": "Conjugate and conjugate-transpose", "statement": "conjugate(x) represents the entrywise conjugate and conjugateTranspose(x) the conjugate transpose; applying either twice gives the original.", "quantifier": "for every DD (exact arithmetic)", "why_tests_cant": "all DD shapes", "anchors": ["src/dd/Package.cpp: conjugate, conjugateRec, conjugateTranspose, conjugateTransposeRec"]}
{"id": "C38", "title": "Inner product and fidelity", "statement": "innerProduct(x,y) is the Hermitian inner product of the represented vectors and fidelity(x,y) its squared modulus.", "quantifier": "for every pair of vector DDs over the same n>=1 qubits (exact arithmetic)", "why_tests_cant": "all vectors of all sizes", "anchors": ["src/dd/Package.cpp: innerProduct, fidelity"]}
{"id": "C39", "title": "Kronecker product", "statement": "kronecker(x,y,n) represents the tensor product of x and the n-qubit y.", "quantifier": "for every pair of DDs and every n (exact arithmetic)", "why_tests_cant": "all shapes, including operands that are identities on some qubits", "anchors": ["include/mqt-core/dd/Package.hpp: kronecker, kronecker2"]}
{"id": "C40", "title": "Trace and partial trace", "statement": "trace(x,n) is the (normalised) trace of the represented n-qubit matrix and partialTrace(x, qubits) the corresponding partial trace.", "quantifier": "for every matrix DD and every set of eliminated qubits (exact arithmetic)", "why_tests_cant": "all shapes, including skipped levels", "anchors": ["include/mqt-core/dd/Package.hpp: trace", "src/dd/Package.cpp: partialTrace"]}
{"id": "C41", "title": "Gate DDs represent the controlled gate", "statement": "makeGateDD(m, controls, target) represents the matrix that applies m to the target exactly on the basis states that satisfy all (positive and negative) controls and is the identity otherwise; likewise makeTwoQubitGateDD.", "quantifier": "for every 2x2 (4x4) matrix, every set of controls and every target(s) (exact arithmetic)", "why_tests_cant": "controls above, between and below the targets in any number", "anchors": ["src/dd/Package.cpp: makeGateDD, makeTwoQubitGateDD"]}
{"id": "C42", "title": "State constructors build the states they name", "statement": "makeZeroState, makeBasisState, makeGHZState, makeWState and makeStateFromVector represent the named state / given vector for every number of qubits, and getVector returns that vector.", "quantifier": "for every number of qubits, bit string and vector (exact arithmetic)", "why_tests_cant": "all sizes", "anchors": ["src/dd/Package.cpp: makeZeroState, makeBasisState, makeGHZState, makeWState, makeStateFromVector", "src/dd/Edge.cpp: getVector, getValueByIndex"]}
{"id": "C43", "title": "Reading a matrix entry agrees with the whole matrix", "statement": "getValueByIndex(n,i,j) equals entry (i,j) of getMatrix(n) for every matrix DD.", "quantifier": "for every matrix DD, n, i, j (exact arithmetic)", "why_tests_cant": "all shapes including skipped identity levels", "anchors": ["src/dd/Edge.cpp: getValueByIndex, getValueByPath, getMatrix, traverseMatrix"]}
{"id": "C44", "title": "Measurement probabilities are the squared norms", "statement": "determineMeasurementProbabilities(root, q) returns the total squared amplitude of the basis states with q=0 and q=1, and measureAll returns a bit string with exactly its Born probability.", "quantifier": "for every normalised state DD, qubit and bit string (exact arithmetic)", "why_tests_cant": "all states; sampling can only estimate a distribution", "anchors": ["src/dd/Package.cpp: determineMeasurementProbabilities, measureAll, performCollapsingMeasurement"]}
{"id": "C45", "title": "Changing a permutation moves qubits as announced", "statement": "changePermutation(on, from, to) leaves `from` equal to `to` on all keys of `to` and permutes the state/matrix so that what was stored for physical qubit k at from[k] is now stored at to[k].", "quantifier": "for every state and every pair of permutations on the same values", "why_tests_cant": "all permutations and states", "anchors": ["include/mqt-core/dd/Operations.hpp: changePermutation"]}
{"id": "C46", "title": "Simulation with virtual SWAPs is faithful", "statement": "simulate (and the static part of sample) executes uncontrolled SWAPs by relabelling; the resulting state equals the state obtained by applying every gate, including SWAPs, to the initial state and relabelling by the output permutation.", "quantifier": "for every unitary circuit, initial layout, output permutation and input state", "why_tests_cant": "all circuits and states", "anchors": ["src/dd/Simulation.cpp: simulate, sample", "src/dd/Operations.cpp: applyUnitaryOperation"]}
{"id": "C47", "title": "Recursive functionality construction equals the sequential one", "statement": "buildFunctionalityRecursive and buildFunctionality return the same matrix for every circuit.", "quantifier": "for every circuit with at least one operation", "why_tests_cant": "all circuit lengths; the recursion splits on bits of the operation index", "anchors": ["src/dd/FunctionalityConstruction.cpp: buildFunctionality, buildFunctionalityRecursive"]}
{"id": "C48", "title": "Classically controlled execution compares the right value", "statement": "A classically controlled operation is executed exactly when the little-endian value of the control register bits (or the control bit) stands in the stated comparison to the expected value.", "quantifier": "for every register range, bit assignment, expected value and comparison kind", "why_tests_cant": "all register sizes and values", "anchors": ["src/dd/Operations.cpp: applyClassicControlledOperation"]}
{"id": "C49", "title": "The GHZ circuit prepares the GHZ state", "statement": "createGHZState(n) maps |0...0> to (|0...0>+|1...1>)/sqrt 2 for every n>=1.", "quantifier": "for every number of qubits n>=1", "why_tests_cant": "all sizes", "anchors": ["src/algorithms/GHZState.cpp: createGHZState"]}
{"id": "C50", "title": "Bernstein-Vazirani recovers the hidden string with certainty", "statement": "Running createBernsteinVazirani(s,n) on |0...0> yields the measurement outcome s with probability one.", "quantifier": "for every n and every hidden string s", "why_tests_cant": "all sizes and strings", "anchors": ["src/algorithms/BernsteinVazirani.cpp: constructBernsteinVaziraniCircuit"]}
{"id": "C51", "title": "The QFT circuit is the discrete Fourier transform", "statement": "createQFT(n) implements the 2^n-dimensional discrete Fourier transform (big-endian qubit order).", "quantifier": "for every n and every basis state", "why_tests_cant": "all sizes", "anchors": ["src/algorithms/QFT.cpp: createQFT"]}
{"id": "C52", "title": "The W-state circuit prepares the W state", "statement": "createWState(n) maps |0...0> to the equal superposition of the n basis states of Hamming weight one.", "quantifier": "for every n>=1", "why_tests_cant": "all sizes", "anchors": ["src/algorithms/WState.cpp: createWState"]}
{"id": "C53", "title": "Grover's circuit amplifies exactly the marked element", "statement": "After k Grover iterations on n data qubits the marked element has amplitude sin((2k+1)a) with sin(a)=2^(-n/2) (up to global sign), and all other elements share the rest equally.", "quantifier": "for every n>=1, marked element and k", "why_tests_cant": "all sizes and iteration counts", "anchors": ["src/algorithms/Grover.cpp: appendGroverInitialization, appendGroverOracle, appendGroverDiffusion"]}
{"id": "C54", "title": "Phase estimation is exact on exact phases", "statement": "If the phase has a finite n-bit expansion, createQPE(lambda,n) measures exactly those bits with probability one.", "quantifier": "for every n and every n-bit phase", "why_tests_cant": "all sizes and phases", "anchors": ["src/algorithms/QPE.cpp: constructQPECircuit"]}
{"id": "C55", "title": "State preparation prepares the requested amplitudes", "statement": "createStatePreparationCircuit(v) maps |0...0> to v (including global phase).", "quantifier": "for every normalised amplitude vector of length 2^n (exact arithmetic, tolerance 0)", "why_tests_cant": "all vectors and sizes", "anchors": ["src/algorithms/StatePreparation.cpp: multiplex, blochAngles, rotationsToDisentangle, gatesToUncompute, createStatePreparationCircuit"]}
{"id": "C56", "title": "Phases stay in (-pi, pi] and are right modulo 2 pi", "statement": "Every PiRational produced by construction or arithmetic lies in (-1,1] (in units of pi) and is congruent modulo 2 to the exact result.", "quantifier": "for all rational operands", "why_tests_cant": "all rationals", "anchors": ["src/zx/Rational.cpp: modPi, operator+=, operator-=, operator*=, operator/=", "include/mqt-core/zx/Rational.hpp"]}
{"id": "C57", "title": "ZX diagram bookkeeping", "statement": "Through any history of adding/removing vertices and edges, adjacency is symmetric, never mentions deleted vertices, and the vertex and edge counters are right.", "quantifier": "for every history of diagram operations", "why_tests_cant": "unbounded histories with vertex slot reuse", "anchors": ["src/zx/ZXDiagram.cpp: addVertex, addEdge, removeEdge, removeVertex, addEdgeParallelAware"]}
{"id": "C58", "title": "ZX rewrite rules preserve the linear map", "statement": "Whenever the applicability check of a rewrite rule (identity removal, spider fusion, local complementation, pivoting) succeeds, applying the rule preserves the linear map of the diagram up to a non-zero scalar.", "quantifier": "for every diagram, vertex (pair) satisfying the check and every boundary assignment", "why_tests_cant": "all diagrams", "anchors": ["src/zx/Rules.cpp: checkIdSimp/removeId, checkSpiderFusion/fuseSpiders, checkLocalComp/localComp, checkPivotPauli/pivotPauli", "src/zx/ZXDiagram.cpp: addEdgeParallelAware"]}
{"id": "C59", "title": "Symbolic expression arithmetic is evaluation-compatible", "statement": "Evaluating the sum, difference, product with a constant of symbolic expressions under any assignment gives the sum, difference, product of the evaluations.", "quantifier": "for all expressions, constants and assignments", "why_tests_cant": "all expressions", "anchors": ["include/mqt-core/ir/operations/Expression.hpp: Expression::operator+=, operator-, operator*, operator/, evaluate"]}
{"id": "C60", "title": "Constant folding computes the C-level result", "statement": "Constant evaluation of an integer expression yields the mathematically defined result modulo 2^64 (with signedness as typed), or reports an error; it never crashes.", "quantifier": "for all operand values and operators", "why_tests_cant": "all 64-bit operands", "anchors": ["src/qasm3/passes/ConstEvalPass.cpp: evalIntExpression, power, visitBinaryExpression, visitUnaryExpression"]}
{"id": "C61", "title": "Lexical scoping", "statement": "A name lookup returns the value of the innermost enclosing scope that declares the name; leaving a scope restores exactly the bindings visible before entering it.", "quantifier": "for every history of push/pop/declare", "why_tests_cant": "unbounded nesting", "anchors": ["include/mqt-core/qasm3/NestedEnvironment.hpp"]}
{"id": "C62", "title": "Expression parsing respects precedence", "statement": "Printing an arithmetic expression with minimal parentheses according to the language's precedence rules and parsing it again yields the same expression tree.", "quantifier": "for every expression tree", "why_tests_cant": "all expression trees", "anchors": ["src/qasm3/Parser.cpp: parseExpression, comparison, term, factor, exponentiation"]}
{"id": "C63", "title": "Exported measurements name the right bits", "statement": "Exporting a measurement, reset or barrier to OpenQASM and reading the statements back performs exactly the same qubit-to-bit measurements (resets, barriers).", "quantifier": "for every register layout and every list of targets and bits", "why_tests_cant": "all register layouts and lists", "anchors": ["src/ir/operations/NonUnitaryOperation.cpp: dumpOpenQASM", "include/mqt-core/ir/Definitions.hpp, src/ir/operations/*: isWholeQubitRegister"]}
{"id": "C64", "title": "The gate matrices are the documented gates", "statement": "For every gate type the matrix used by the simulator equals the textbook gate of that name: Pauli rotations exp(-i*theta*A/2), phase gates diag(1, e^{i*lambda}), U(theta,phi,lambda) = e^{i(phi+lambda)/2} RZ(phi) RY(theta) RZ(lambda), permutation gates given by their action on basis states; a missing parameter gives no matrix.", "quantifier": "for every gate type and all real parameters", "why_tests_cant": "all real parameters; unitarity alone does not fix which gate a matrix is", "anchors": ["src/dd/GateMatrixDefinitions.cpp: uMat .. xxPlusYYMat, opToSingleQubitGateMatrix, opToTwoQubitGateMatrix"]}
{"id": "C65", "title": "The global phase stays normalised", "statement": "After every QuantumComputation::gphase(angle) the stored global phase lies in [0, 2*pi) and differs from the old phase plus the angle by a multiple of 2*pi; the normalisation loops terminate.", "quantifier": "for every current phase and every real angle", "why_tests_cant": "all real angles; unbounded loops", "anchors": ["src/ir/QuantumComputation.cpp: gphase"]}
{"id": "C66", "title": "Element-wise magnitude sum", "statement": "addMagnitudes(x,y) represents the vector (matrix) whose entries are sqrt(|x_i|^2 + |y_i|^2), as its documentation says.", "quantifier": "for every pair of DDs over the same qubits (exact arithmetic)", "why_tests_cant": "all DD shapes and weights; phases of inner weights", "anchors": ["include/mqt-core/dd/Package.hpp: addMagnitudes"]}
{"id": "C67", "title": "Expectation values", "statement": "expectationValue(x,y) is the real part of <y|x|y>, and is rejected when the observable acts on more qubits than the state has.", "quantifier": "for every matrix DD and every vector DD (exact arithmetic)", "why_tests_cant": "all observables and states, including skipped levels", "anchors": ["src/dd/Package.cpp: expectationValue"]}
{"id": "C68", "title": "Matrix construction round trip", "statement": "makeDDFromMatrix(m) is a DD of the maintained shape whose entry (i,j) is m[i][j], and getMatrix of it returns m.", "quantifier": "for every 2^n x 2^n complex matrix, every n (exact arithmetic)", "why_tests_cant": "all matrices of all sizes", "anchors": ["src/dd/Package.cpp: makeDDFromMatrix", "src/dd/Edge.cpp: getMatrix, traverseMatrix"]}
{"id": "C69", "title": "Operation diagrams denote the relabelled operation; inverses are adjoints", "statement": "getDD(op, permutation) is a matrix DD of the maintained shape whose action on states stored in the layout of the permutation is the action of op on the physical qubits, and getInverseDD(op, permutation) is its conjugate transpose.", "quantifier": "for every unitary (standard or nested compound) operation, number of qubits and permutation (exact arithmetic)", "why_tests_cant": "all gates with all control sets, parameters, permutations and nestings", "anchors": ["src/dd/Operations.cpp: getStandardOperationDD, getDD, getInverseDD"]}
{"id": "C70", "title": "Ancillary reduction projects exactly the ancillary qubits", "statement": "reduceAncillae keeps exactly the columns (rows for regular=false) in which all ancillary qubits are 0 and zeroes all others; createInitialMatrix is the projector onto ancillaries being 0.", "quantifier": "for every matrix DD, every ancillary vector, any number of qubits (exact arithmetic)", "why_tests_cant": "all DD shapes including skipped identity levels, all ancillary patterns", "anchors": ["src/dd/Package.cpp: reduceAncillae, reduceAncillaeRecursion, createInitialMatrix"]}
{"id": "C71", "title": "The functionality matrix holds the circuit's action on every basis state", "statement": "buildFunctionality returns the matrix whose column y is the circuit (including SWAPs executed virtually) applied to the basis state y in the initial layout, arranged by the output permutation, with columns of non-zero ancillaries zeroed.", "quantifier": "for every unitary circuit, layout, output permutation and ancillary vector", "why_tests_cant": "all circuits and layouts", "anchors": ["src/dd/FunctionalityConstruction.cpp: buildFunctionality"]}
{"id": "C72", "title": "The chosen number of Grover iterations succeeds", "statement": "With the number of iterations chosen by computeNumberOfIterations the Grover circuit measures the marked element with probability at least 1/2.", "quantifier": "for every number of qubits n>=1 and marked element", "why_tests_cant": "all sizes; probability bound", "anchors": ["src/algorithms/Grover.cpp: computeNumberOfIterations"]}
{"id": "C73", "title": "Phase estimation finds the nearest value with good probability", "statement": "For an arbitrary phase the outcome nearest to the exact value is measured with probability at least 4/pi^2; in the inexact mode both neighbours are.", "quantifier": "for every phase and precision up to 64", "why_tests_cant": "all phases and sizes; probability bound", "anchors": ["src/algorithms/QPE.cpp: constructQPECircuit, createInexactPhase"]}
{"id": "C74", "title": "ZX simplification loops", "statement": "The simplification loops idSimp, spiderSimp, localCompSimp, pivotPauliSimp, pivotSimp, pivotgadgetSimp, interiorCliffordSimp and cliffordSimp preserve the linear map of the diagram up to a positive factor and never have undefined behaviour; interiorCliffordSimp ends, and then none of its rules applies.", "quantifier": "for every diagram and every number of iterations", "why_tests_cant": "all diagrams; termination", "anchors": ["src/zx/Simplify.cpp", "include/mqt-core/zx/Simplify.hpp", "src/zx/Utils.cpp: EdgeIterator"]}
{"id": "C75", "title": "Gadget fusion preserves the linear map", "statement": "checkAndFuseGadget preserves the linear map of a graph-like diagram up to a non-zero factor.", "quantifier": "for every graph-like diagram, vertex and boundary assignment", "why_tests_cant": "all diagrams", "anchors": ["src/zx/Rules.cpp: checkAndFuseGadget"]}
{"id": "C76", "title": "if statements are imported with the condition written", "statement": "For an if statement that passes the type checker, the imported classically controlled operations perform the first block if the condition holds for the classical memory and the second block otherwise, and the import has no undefined behaviour.", "quantifier": "for every condition, registers, blocks and classical memory", "why_tests_cant": "all conditions and memories", "anchors": ["src/qasm3/Importer.cpp: translateCondition, visitIfStatement", "src/qasm3/passes/TypeCheckPass.cpp: visitIfStatement"]}
{"id": "C77", "title": "Gate calls are imported with their meaning", "statement": "If evaluateGateCall accepts a gate call, the operation it creates is the unitary the call means: for every instance of the broadcast, the definition of the gate (with lexical scoping of its parameters) under the modifiers ctrl, negctrl and inv, applied from the innermost to the outermost, each control taking the leading operands.", "quantifier": "for every set of gate declarations, call, register map and nesting depth", "why_tests_cant": "all programs; nesting and modifiers unbounded", "anchors": ["src/qasm3/Importer.cpp: evaluateGateCall, applyQuantumOperation", "include/mqt-core/qasm3/StdGates.hpp"]}
{"id": "C78", "title": "Multi-controlled gates and names of controlled gates", "statement": "mcx, mcx_gray, mcx_vchain, mcx_recursive and mcphase with k controls are imported as one X (or phase) gate on the qubit after the k controls and leave their ancillas alone; standard gates named c...c g are g with so many more controls.", "quantifier": "for every number of controls below 2^64 and all operands", "why_tests_cant": "any number of controls", "anchors": ["src/qasm3/Importer.cpp: getMcGateDefinition, parseGateIdentifierCompatMode", "include/mqt-core/qasm3/StdGates.hpp: STANDARD_GATES"]}
{"id": "C79", "title": "Type checking leaves the declarations alone", "statement": "Type checking a condition reports unknown identifiers and does not change the declared type of any identifier.", "quantifier": "for every environment and expression", "why_tests_cant": "all expressions and environments", "anchors": ["src/qasm3/passes/TypeCheckPass.cpp: visitBinaryExpression, visitUnaryExpression, visitIndexedIdentifier"]}
{"id": "C80", "title": "Single-qubit gate fusion preserves the circuit", "statement": "singleQubitGateFusion merges consecutive single-qubit gates into compound operations and cancels inverse pairs without changing the action of the circuit (amplitudes, measurement statistics, classical memory).", "quantifier": "for every circuit, every state, classical memory and sequence of measurement outcomes", "why_tests_cant": "circuits of any length over continuous gate parameters; the pass pairs operations that may be arbitrarily far apart", "anchors": ["src/circuit_optimizer/CircuitOptimizer.cpp: CircuitOptimizer::singleQubitGateFusion"]}
{"id": "C81", "title": "Eliminating resets keeps the measurement statistics", "statement": "eliminateResets replaces every reset by a fresh qubit: the new circuit contains no resets, writes the same classical memory, and for every sequence of measurement outcomes has the probability of the original circuit summed over the outcomes of the resets (indeed corresponding amplitudes).", "quantifier": "for every circuit, initial state, classical memory and all outcomes", "why_tests_cant": "any number of qubits, resets and measurements; amplitudes range over a continuum", "anchors": ["src/circuit_optimizer/CircuitOptimizer.cpp: CircuitOptimizer::eliminateResets, changeTargets, changeControls", "src/ir/QuantumComputation.cpp: QuantumComputation::addQubit"]}
{"id": "C82", "title": "Deferring measurements keeps the circuit", "statement": "deferMeasurements moves measurements to the end of the circuit and replaces operations conditioned on their outcomes by controlled ones; up to the order in which random outcomes are drawn, every state, classical memory and sequence of outcomes is treated as before. Resets, conditional resets and conditions on several bits are rejected.", "quantifier": "for every circuit, state, classical memory and outcome sequence, and every order in which the map of measurements is traversed", "why_tests_cant": "circuits of any length with continuous parameters; exponentially many outcome sequences; hash-map order", "anchors": ["src/circuit_optimizer/CircuitOptimizer.cpp: CircuitOptimizer::deferMeasurements"]}
{"id": "C83", "title": "Removing final measurements removes exactly the final ones", "statement": "removeFinalMeasurements terminates without exception or undefined behaviour, removes exactly those measurements and barriers behind which only such operations follow on their qubits, keeps every other operation in order, and the circuit that is left followed by the removed measurements has the meaning of the given circuit up to the order in which outcomes are drawn.", "quantifier": "for every circuit, number of qubits, state, classical memory and outcome sequence", "why_tests_cant": "the mutual recursion over per-qubit iterators depends on the whole dependency graph of a circuit of any length; termination cannot be tested", "anchors": ["src/circuit_optimizer/CircuitOptimizer.cpp: CircuitOptimizer::removeFinalMeasurements, removeFinalMeasurementsRecursive, removeFinalMeasurement"]}
{"id": "C84", "title": "The ZX diagram of a circuit is the circuit's unitary", "statement": "For a circuit accepted by transformableToZX, buildFunctionality returns without exception or undefined behaviour a well-formed diagram with the circuit's qubits as inputs and outputs, whose linear map is that of the circuit, with parameters to within the accuracy of PiRational, up to a positive factor; circuits that are not accepted raise an exception.", "quantifier": "for every circuit of standard and compound operations, permutation of its qubits, and assignment of the symbols", "why_tests_cant": "the diagrams have no independent evaluator in the code base and the tests compare a handful of small circuits with their own inverse; wrong gates whose inverse is wrong in the same way pass", "anchors": ["src/zx/FunctionalityConstruction.cpp: FunctionalityConstruction::buildFunctionality, parseOp, parseCompoundOp, transformableToZX, checkSwap, addZSpider, addXSpider, addRz, addRx, addRy, addCnot, addCphase, addRzz, addRxx, addRzx, addDcx, addXXplusYY, addXXminusYY, addSwap, addCcx", "src/zx/ZXDiagram.cpp: ZXDiagram::ZXDiagram, initGraph, closeGraph"]}
{"id": "C85", "title": "Output permutations are propagated back to a matching initial layout", "statement": "backpropagateOutputPermutation runs without undefined behaviour and gives the circuit an initial layout that is a bijection of its qubits, such that following the uncontrolled SWAPs of the circuit from it leads to a layout containing every entry of the output permutation; when elidePermutations is run afterwards the output permutation becomes the identity, and the circuit without SWAPs takes the qubits as placed by the initial layout to the qubits as placed by the output permutation.", "quantifier": "for every circuit (nested compounds, classically controlled operations, measurements, resets), injective partial output permutation from the circuit's physical to its logical qubits, and iteration order of the unordered set", "why_tests_cant": "the pass is tested on a few fixed circuits; partial output permutations with all interleavings of SWAPs of mapped and unmapped qubits, and all hash orders, cannot be enumerated", "anchors": ["src/circuit_optimizer/CircuitOptimizer.cpp: backpropagateOutputPermutation, elidePermutations"]}
{"id": "C86", "title": "Deterministic noise applies the channel of its effects", "statement": "The noise model accepts exactly the strings over A, P, D, I with probabilities between 0 and 1. Applying noise to a density matrix after an operation yields, without undefined behaviour, a density matrix (Hermitian, positive, same trace): the one obtained by applying amplitude damping, phase flip and depolarisation, given by their Kraus operators, in the order of the string to every qubit of the operation, with the single- or multi-qubit probabilities according to the number of qubits.", "quantifier": "for every noise model, set of used qubits, number of qubits and density-matrix decision diagram", "why_tests_cant": "tests compare a few amplitudes of two small circuits with recorded values; which levels of the diagram are skipped depends on the state, and the shortcut that computes only one off-diagonal block is only right if the Hermitian form is kept by every step", "anchors": ["src/dd/NoiseFunctionality.cpp: initializeNoiseEffects, DeterministicNoiseFunctionality::DeterministicNoiseFunctionality, applyNoiseEffects, applyPhaseFlipToEdges, applyAmplitudeDampingToEdges, applyDepolarisationToEdges, sanityCheckOfNoiseProbabilities", "include/mqt-core/dd/Package.hpp: makeDDNode, add2 (density matrices)"]}
{"id": "C87", "title": "Stochastic noise averages to the channel of its effects", "statement": "After an operation on a normalised state, applyNoiseOperation returns a diagram of a normalised state for all random draws, and the average of the projectors onto the results is the density matrix obtained by applying amplitude damping, phase flip and depolarisation, given by their Kraus operators, in the order of the string to every target, with the single- or multi-qubit probabilities according to the number of targets.", "quantifier": "for every accepted noise model, norm-preserving operation diagram, normalised state diagram, set of targets and sequence of draws", "why_tests_cant": "tests average a few hundred runs of one circuit with a large tolerance; wrong scaling of a rare branch, or a branch that loses the state, stays below the statistical error", "anchors": ["src/dd/NoiseFunctionality.cpp: StochasticNoiseFunctionality::StochasticNoiseFunctionality, applyNoiseOperation, stackOperation, generateNoiseOperation, returnNoiseOperation, getNoiseProbability, getAmplitudeDampingOperationMatrix, sanityCheckOfNoiseProbabilities"]}
{"id": "C88", "title": "Layers execute every operation once, in an order with the meaning of the circuit", "statement": "Constructing the layers of a circuit succeeds. However executable operations are chosen for execution, no operation is executed twice, the executable set contains exactly the unexecuted operations whose non-commuting predecessors have been executed, it is empty only when all operations have been executed, and the order of execution has the meaning of the circuit; without commutation the order on every qubit is that of the circuit.", "quantifier": "for every circuit, both values of commutable and every sequence of executions", "why_tests_cant": "tests execute a few hand-picked orders of three circuits; the number of orders grows factorially, and wrong edges show up only for particular combinations of inverse pairs and shared qubits", "anchors": ["src/datastructures/Layer.cpp: constructDAG", "include/mqt-core/datastructures/Layer.hpp: DAGVertex::create, isExecutable, updateExecutableSet, execute, addEnabledSuccessor, addDisabledSuccessor"]}
{"id": "C89", "title": "Sampled counts follow the distribution of independent runs of the circuit", "statement": "The numbers of shots that sample reports for the strings of classical bits are distributed as those of independent runs of the circuit: measurements and resets project with the Born probabilities, conditioned operations see the bits measured before, measurement results go to their bits, and without measurements every qubit is reported at the bit given by the output permutation. Sampling does not fail.", "quantifier": "for every circuit of unitary operations, measurements, resets and conditioned operations, every initial and output permutation, every initial state and every number of shots", "why_tests_cant": "tests compare a few histograms within tolerances; a wrong bit order, a layout that is not followed or a measurement applied to the wrong wire is visible only for particular permutations and circuits", "anchors": ["src/dd/Simulation.cpp: sample", "src/dd/Operations.cpp: applyMeasurement, applyReset, applyClassicControlledOperation", "src/dd/Package.cpp: measureAll, measureOneCollapsing"]}
{"id": "C90", "title": "Collecting operations into blocks", "statement": "collectBlocks ends, leaves no null pointer in the circuit and keeps every operation exactly once (up to identities and the compound operations around them). Every operation of the result uses at most as many qubits as asked for, or is an operation of the circuit that is not unitary or uses more. The meaning of the circuit is kept.", "quantifier": "for every circuit, block size, order of the entries of the unordered maps and of entries that std::sort compares equal", "why_tests_cant": "tests look at a dozen circuits with at most three qubits and check the number and size of blocks; which block is extended and where it stands depends on all earlier unions and on the order of hash maps", "anchors": ["src/circuit_optimizer/CircuitOptimizer.cpp: DSU, collectBlocks", "src/ir/operations/CompoundOperation.cpp: isConvertibleToSingleOperation, collapseToSingleOperation"]}
{"id": "C91", "title": "Reordering operations keeps the order on every qubit and the meaning", "statement": "reorderOperations ends without dereferencing a null pointer or the end of a list. The new circuit consists of the operations of the old one, each of them once, their order on every qubit is kept, and the circuit has the same meaning up to the order in which measurement outcomes are drawn.", "quantifier": "for every circuit whose operations use only qubits of the circuit", "why_tests_cant": "tests compare a few three-qubit circuits with an expected order; whether the sweep ends, and what happens to operations without qubits, nested blocks and operations that depend on measured bits, needs all interleavings of all operations", "anchors": ["src/ir/QuantumComputation.cpp: reorderOperations", "src/ir/operations/CompoundOperation.cpp: actsOn, getUsedQubits", "include/mqt-core/ir/operations/ClassicControlledOperation.hpp: actsOn"]}
{"id": "C92", "title": "Outputs and garbage qubits are read off the measurements", "statement": "initializeIOMapping maps every measured qubit to the bit its first measurement writes, and no other qubit; without measurements the given output permutation stays. Exactly those logical qubits are marked garbage that are no output or that are ancillary and idle, and garbage qubits are removed from the output permutation, which is injective. If an output permutation is given that lacks a measured qubit, there is an exception.", "quantifier": "for every circuit, initial layout, output permutation and set of ancillaries", "why_tests_cant": "tests use a handful of circuits with one measurement per qubit; repeated measurements, bits shared by qubits, measurements of several qubits at once and given permutations that get permuted interact, and a wrong entry is only visible in a later equivalence check or simulation", "anchors": ["src/ir/QuantumComputation.cpp: initializeIOMapping, isIdleQubit, setLogicalQubitGarbage"]}
{"id": "C93", "title": "Stripping idle qubits keeps the layout of the others", "statement": "stripIdleQubits removes exactly the physical qubits on which no operation acts and which, unless forced, are no output and hold no logical qubit that is an output. The logical qubits left are numbered from zero in their old order, consistently in the initial layout, the output permutation and the ancillary and garbage flags; both layouts stay injective and within the number of qubits; stripping again changes nothing.", "quantifier": "for every circuit, with and without force, whose layouts are injective and within the number of qubits", "why_tests_cant": "tests strip one or two qubits at the end of small circuits with the identity layout; the renumbering in the loop, done while qubits are removed from the back, depends on the order of removal, on the layouts and on the flags", "anchors": ["src/ir/QuantumComputation.cpp: stripIdleQubits, removeQubit, isIdleQubit, getPhysicalQubitIndex"]}
{"id": "C94", "title": "Dynamic circuits are recognised", "statement": "isDynamic is true exactly if the circuit, with its compound operations taken apart, has a reset, a classically controlled operation, or a standard operation on a qubit that was measured before. A circuit that is not dynamic means the same as its gates followed by its measurements.", "quantifier": "for every circuit of standard, compound, measurement, reset and classically controlled operations on qubits of the circuit, at any depth of nesting, and for every state and every outcome of the measurements", "why_tests_cant": "tests try a handful of circuits of two or three operations; the claim is about all circuits, nested compound operations included, and about their meaning", "anchors": ["src/ir/QuantumComputation.cpp: isDynamic, isDynamicCircuit"]}
{"id": "C95", "title": "Symbolic operations are instantiated to the gates they stand for", "statement": "An operation constructed with numbers and symbolic expressions as parameters and instantiated with values for the variables is the gate with the values of these parameters, up to the parameter tolerance; instantiating in place gives the same operation. Inverting commutes with instantiating. Equal operations have the same instantiations. An instantiated circuit is free of variables.", "quantifier": "for every type, all parameters (numbers or expressions), every assignment of the variables, all controls and targets, every circuit, for every tolerance up to 1/2 and every rounding function", "why_tests_cant": "tests instantiate single gates with a few values; the special cases of the canonicalisation of u gates for each of the seven combinations of symbols and numbers are entered only for particular angles", "anchors": ["src/ir/operations/SymbolicOperation.cpp: parseU1, parseU2, parseU3, checkSymbolicUgate, setup, getInstantiatedOperation, instantiate, invert, equals", "src/ir/QuantumComputation.cpp: instantiateInplace, isVariableFree"]}
{"id": "C96", "title": "Standard operations exported to OpenQASM are imported with the same meaning", "statement": "Exporting a standard operation with dumpOpenQASM2 or dumpOpenQASM3 and importing the statements gives operations that together do to every state what the operation does, with its parameters as printed.", "quantifier": "for every standard operation (type, parameters, controls of both polarities, targets) on qubits of the registers, every layout of the registers, every rounding of the printed parameters, and every state, with OpenQASM 2 and OpenQASM 3", "why_tests_cant": "tests export a few gates with one or two controls; the claim is about every gate with any number of positive and negative controls in any order, and about matrices, which tests compare only for small circuits", "anchors": ["src/ir/operations/StandardOperation.cpp: dumpOpenQASM, dumpOpenQASM2, dumpOpenQASM3, dumpGateType, dumpControls", "src/qasm3/Importer.cpp: evaluateGateCall, parseGateIdentifierCompatMode"]}
{"id": "C97", "title": "The OpenQASM scanner finds the tokens of a text", "statement": "Reading a text that consists of tokens, separated by any white space and comments, with the scanner gives exactly these tokens with their values, each as long as possible; a text has at most one such reading, and every call of next consumes a character.", "quantifier": "for every text made of keywords, identifiers, operators, integers of the four bases with underscores, floating-point literals, timing literals, hardware qubits, strings and comments, of any length", "why_tests_cant": "tests scan a handful of programs; the claim is about every sequence of tokens with anything between them, in particular about which neighbours need no separation", "anchors": ["src/qasm3/Scanner.cpp: Scanner::next, consumeWhitespaceAndComments, consumeName, consumeNumberLiteral, parseIntegerLiteral, consumeHardwareQubit, consumeString", "include/mqt-core/qasm3/Scanner.hpp: Scanner"]}
{"id": "C98", "title": "Initial layout and output permutation survive export and import", "statement": "The comments with initial layout and output permutation that dumpOpenQASM writes are read back by the importer as the same maps, with physical qubits numbered consecutively, whatever program follows.", "quantifier": "for every initial layout and output permutation, and every program after the header without comments of that form", "why_tests_cant": "tests check a few layouts on two or three qubits; the claim is about every pair of maps, and about every comment that may be taken for one", "anchors": ["src/ir/QuantumComputation.cpp: dumpOpenQASM", "src/qasm3/Parser.cpp: parsePermutation", "src/qasm3/Importer.cpp: visitInitialLayout, visitOutputPermutation, visitProgram", "src/qasm3/Scanner.cpp: consumeWhitespaceAndComments"]}
{"id": "C99", "title": "Garbage qubits are summed over", "statement": "Reducing the garbage qubits of a state or matrix diagram puts, where the garbage qubits are 0, the square root of the sum of the squared magnitudes over all their values, and 0 elsewhere; simulation and construction of the functionality apply this to the circuit's result.", "quantifier": "for every canonical vector or matrix diagram on any number of qubits, every set of garbage qubits, both directions and both settings of normalizeWeights, and every circuit", "why_tests_cant": "tests reduce diagrams of two or three qubits; the claim is about every diagram, with skipped levels anywhere, and every set of garbage qubits", "anchors": ["src/dd/Package.cpp: reduceGarbage, reduceGarbageRecursion", "src/dd/Simulation.cpp: simulate", "src/dd/FunctionalityConstruction.cpp: buildFunctionality, buildFunctionalityRecursive"]}
{"id": "C100", "title": "Serialised diagrams are read back", "statement": "Writing a decision diagram with serialize, in text or binary format, and reading it with deserialize gives the same diagram; the traversal ends, and writes each node once after the nodes it refers to.", "quantifier": "for every canonical vector or matrix diagram on any number of qubits, with any sharing of nodes", "why_tests_cant": "tests serialise a few small states and matrices; the claim is about every diagram and every pattern of sharing", "anchors": ["src/dd/Export.cpp: serialize, serializeMatrix", "include/mqt-core/dd/Package.hpp: deserialize, deserializeNode"]}
{"id": "C101", "title": "Transfer to another package keeps the diagram", "statement": "Transferring a decision diagram to another package gives the same diagram there.", "quantifier": "for every canonical vector or matrix diagram on any number of qubits, with any sharing of nodes", "why_tests_cant": "tests transfer one small diagram; the loop with one stack depends on which successors coincide or have been visited before, which no finite set of diagrams exhausts", "anchors": ["include/mqt-core/dd/Package.hpp: transfer"]}
{"id": "C102", "title": "OpenQASM programs are parsed as written", "statement": "The parser turns every text of a program (declarations, gate definitions, gate calls with modifiers, assignments, measurements, resets, barriers, nested if-else, includes, versions) into exactly that program; a text it accepts is a text of the program it returns; an else belongs to the nearest if.", "quantifier": "for every program with any nesting and any number of operands, parameters and statements, and every text of it allowed by the grammar of OpenQASM, with any spaces and comments", "why_tests_cant": "tests parse a few dozen programs; the claim quantifies over all programs and all their texts, and the converse over all token lists", "anchors": ["src/qasm3/Parser.cpp: parseProgram, parseStatement, parseQuantumStatement, parseInclude, parseAssignmentStatement, parseIfStatement, parseBlockOrStatement, parseGateCallStatement, parseDeclaration, parseGateDefinition"]}
{"id": "C103", "title": "The text of an exported circuit is read as the circuit", "statement": "The text written for a circuit in OpenQASM 2 or 3 (layout comments, version, include, register declarations, gates with controls and parameters, measurements, resets, barriers) is scanned and parsed into exactly the statements it was written for; what the export produces for standard and non-unitary operations is such a text; two circuits with the same text have the same registers, operations and layouts.", "quantifier": "for every circuit with any number of registers of any names and sizes, any layouts, and any sequence of gates (any number of controls of either polarity, any printed decimal numbers as parameters), measurements, resets and barriers, in both versions of OpenQASM", "why_tests_cant": "tests export and import a few circuits; the claim quantifies over all register names, sizes, numbers and operation sequences, and joins three components (export, scanner, parser)", "anchors": ["src/ir/QuantumComputation.cpp: dumpOpenQASM, printSortedRegisters", "src/ir/operations/StandardOperation.cpp: dumpOpenQASM2, dumpOpenQASM3, dumpGateType, dumpControls", "src/ir/operations/NonUnitaryOperation.cpp: dumpOpenQASM", "src/qasm3/Scanner.cpp", "src/qasm3/Parser.cpp", "include/mqt-core/qasm3/StdGates.hpp: QE1LIB"]}
{"id": "C104", "title": "The type check accepts exactly the well-typed OpenQASM programs", "statement": "The check of an expression returns its type and reports an error if and only if it has none; a condition is accepted if and only if it is a bit or boolean; a program is accepted if and only if every identifier is declared before its use, every index is an unsigned integer and every assigned value fits its target; checking leaves the types of the declared identifiers as they are; no input makes the check read through a null pointer.", "quantifier": "for every expression of any depth, every program of any length, and every environment of declared identifiers", "why_tests_cant": "tests check a few well-typed and ill-typed programs; the claim quantifies over all programs, and the failures need two statements that share a type object, or an unknown identifier at a particular place", "anchors": ["src/qasm3/passes/TypeCheckPass.cpp", "src/qasm3/Types.cpp: fits, DesignatedType", "include/mqt-core/qasm3/Types.hpp", "src/qasm3/passes/ConstEvalPass.cpp: visitDesignatedType", "src/qasm3/Importer.cpp: initializeBuiltins"]}
{"id": "C105", "title": "An exported circuit is imported again as the same circuit", "statement": "The text that the export writes for a circuit is read, type-checked and imported without an error, as a circuit with the same quantum and classical registers, the layouts of the exported circuit with the qubits numbered consecutively, and for every operation in order: the same barrier, the same measurements and resets, or gates that together do to every state what the exported gate does (with its parameters as they were printed).", "quantifier": "for every circuit with any registers, any layouts, and any sequence of standard operations (any controls of either polarity, any parameters), measurements, resets and barriers, in both versions of OpenQASM", "why_tests_cant": "round-trip tests cover a few circuits; the claim quantifies over all circuits and runs through every component of export and import at once (export, scanner, parser, type check, importer, libraries of gates)", "anchors": ["src/ir/QuantumComputation.cpp: dumpOpenQASM, addQubitRegister, addClassicalRegister", "src/qasm3/Importer.cpp: import, visitProgram, visitDeclarationStatement, visitGateStatement, visitGateCallStatement, visitMeasureAssignment, visitBarrierStatement, visitResetStatement", "src/qasm3/passes/TypeCheckPass.cpp", "src/qasm3/Parser.cpp", "include/mqt-core/qasm3/StdGates.hpp: STDGATES, QE1LIB"]}
{"id": "C106", "title": "Removing operations removes exactly the operations asked for", "statement": "removeOperation removes exactly the operations of the listed types (with the given number of qubits, if one is given) from the circuit and from its compound operations, keeps all others in their order, leaves no compound operation with fewer than two parts behind, and changes nothing when done again; if the operations removed do nothing, the meaning of the circuit stays the same; removeIdentities is the case of the identity gate.", "quantifier": "for every circuit of standard, compound (nested to any depth), measurement, reset and classically controlled operations, every set of operation types and every number of qubits", "why_tests_cant": "the tests remove gates from five small circuits; the claim quantifies over all circuits and nestings, all sets of types and sizes, and the failing case needs a compound operation in another", "anchors": ["src/circuit_optimizer/CircuitOptimizer.cpp: removeOperation, removeIdentities", "include/mqt-core/ir/operations/Operation.hpp: getNqubits", "include/mqt-core/ir/operations/CompoundOperation.hpp: erase"]}
{"id": "C107", "title": "Graph-like and adjoint ZX diagrams denote what they should", "statement": "toGraphlike replaces every X spider by a Z spider with the same phase, keeps the diagram well formed and its linear map unchanged; adjoint exchanges inputs and outputs and yields the conjugate transpose of the linear map, and applied twice yields the diagram again.", "quantifier": "for every well-formed ZX diagram (any numbers of vertices, edges, inputs and outputs, any phases including symbolic ones, any global phase) and every assignment of the variables", "why_tests_cant": "the tests look at one diagram each and only compare vertex types or check that a circuit and its adjoint cancel; the claim is about all diagrams and the complete linear map, and the failing cases need parallel edges or a global phase", "anchors": ["src/zx/ZXDiagram.cpp: toGraphlike, adjoint, invert", "include/mqt-core/zx/ZXDefinitions.hpp", "include/mqt-core/zx/Utils.hpp: Edge::toggle"]}
{"id": "C108", "title": "Concatenation of ZX diagrams is composition of linear maps", "statement": "concat of two diagrams with the same number of qubits yields a well-formed diagram with the inputs of the first and as many outputs, whose linear map is the composition of the two linear maps up to a positive factor; diagrams with different numbers of qubits are rejected.", "quantifier": "for all pairs of well-formed ZX diagrams with n inputs and n outputs each (any n, any numbers of vertices and edges, any phases including symbolic ones, any global phases), where the k-th input of the second is on qubit k and every output of the first and input of the second has exactly one edge, for every matrix entry and every assignment of the variables", "why_tests_cant": "the tests concatenate one or two small diagrams and count vertices and edges; the claim is about the linear map of all results, and the failing cases need a global phase or inputs connected with each other", "anchors": ["src/zx/ZXDiagram.cpp: ZXDiagram::concat", "src/zx/ZXDiagram.cpp: addVertex, addEdge, removeVertex", "include/mqt-core/zx/ZXDiagram.hpp: qubit, getNQubits"]}
{"id": "C109", "title": "isIdentity accepts exactly the identity wires", "statement": "isIdentity has a result, and it is true only for diagrams where every input is joined with the output of the same number by a plain edge without further vertices in between (as documented), so that the linear map is the identity up to a positive factor.", "quantifier": "for every well-formed ZX diagram with n inputs and n outputs that are different boundary vertices (any n, any spiders, edges and phases), every matrix entry and every assignment of the variables", "why_tests_cant": "the tests call it on a handful of diagrams for which it should hold; none has a Hadamard edge between an input and an output or a spider without edges", "anchors": ["src/zx/ZXDiagram.cpp: ZXDiagram::isIdentity, connected", "include/mqt-core/zx/ZXDiagram.hpp: documentation of isIdentity"]}
{"id": "C110", "title": "makeAncilla projects a wire on the state 0", "statement": "makeAncilla(in, out) removes the input and the output from the diagram, and the linear map of the result is that of the diagram with the removed input and output fixed to the state 0, up to a positive factor; the result can be concatenated with other diagrams with as many qubits.", "quantifier": "for every well-formed ZX diagram, every input and every output (on the same or on different qubits) that is a boundary vertex with one edge (of any type, to a vertex of any type, also to each other), every matrix entry and every assignment of the variables", "why_tests_cant": "the tests make ancillas in one diagram and check vertex types; the claim is about the complete linear map of all diagrams", "anchors": ["src/zx/ZXDiagram.cpp: ZXDiagram::makeAncilla", "include/mqt-core/zx/ZXDiagram.hpp: setType, qubit"]}
{"id": "C111", "title": "Fidelity of measurement outcomes", "statement": "fidelityOfMeasurementOutcomes returns the sum over all basis states of the magnitude of the amplitude times the square root of the given probability of the outcome, where the outcome is the basis state with the physical qubits renamed to logical ones by the permutation (all qubits, if it is empty).", "quantifier": "for every vector decision diagram (any number of qubits), every sparse map of probabilities and every permutation with different logical qubits in range", "why_tests_cant": "the only test uses a GHZ state without a permutation; the claim is about all states and permutations, including those that drop qubits", "anchors": ["src/dd/Package.cpp: fidelityOfMeasurementOutcomes, fidelityOfMeasurementOutcomesRecursive", "include/mqt-core/dd/DDDefinitions.hpp: intToBinaryString"]}
{"id": "C112", "title": "Test for closeness to the identity", "statement": "isCloseToIdentity accepts a matrix exactly if it is, within the tolerance and ignoring garbage qubits, the identity (0 being allowed on the diagonal for ancillary qubits), or diagonal if checkCloseToOne is false: an accepted matrix has no entry beyond the tolerance where the row and the column differ in a qubit that is not garbage, with checkCloseToOne its diagonal is close to 1 (or 0), and every diagonal matrix is accepted without checkCloseToOne.", "quantifier": "for every canonical matrix decision diagram (any number of qubits), every tolerance, every list of garbage qubits and both values of checkCloseToOne", "why_tests_cant": "the tests use a few matrices of one to three qubits; the claim is about all matrices, including those with shared nodes, which are visited once", "anchors": ["src/dd/Package.cpp: isCloseToIdentity, isCloseToIdentityRecursive", "include/mqt-core/dd/Package.hpp: isCloseToIdentity"]}
{"id": "C113", "title": "Removal of disconnected spiders", "statement": "removeDisconnectedSpiders always terminates, removes exactly the vertices without a path to an input or an output, keeps all other vertices with their data and edges, the inputs, the outputs and the global phase, and does not change the linear map of the diagram up to a positive factor.", "quantifier": "for every well-formed ZX diagram whose boundary vertices are inputs or outputs (any size, any phases, cycles, several components), every matrix entry and every assignment of the variables", "why_tests_cant": "the function is only run at the end of fullReduce on a few circuits; the claim is about all graphs and the complete linear map", "anchors": ["src/zx/ZXDiagram.cpp: ZXDiagram::removeDisconnectedSpiders, isInput, isOutput, removeVertex"]}
{"id": "C114", "title": "Iterators over ZX diagrams", "statement": "The loops over the vertices and over the edges of a ZX diagram end; the first visits every existing vertex once in increasing order, the second every edge once, from the vertex with the smaller index. getAdjMat returns the adjacency matrix with ones on the diagonal, and getConnectedSet the sorted list of all neighbours of the given vertices that are not excluded, without duplicates.", "quantifier": "for every well-formed ZX diagram (any size, deleted vertices anywhere, parallel edges, vertices without edges, also the empty diagram) and all lists of vertices", "why_tests_cant": "the tests iterate over one diagram; the iterator over edges is a state machine that has to skip deleted vertices, empty lists and edges seen before in every combination", "anchors": ["src/zx/Utils.cpp: VertexIterator, EdgeIterator, checkNextVertex, nextValidVertex", "src/zx/ZXDiagram.cpp: getVertices, getEdges, getAdjMat, getConnectedSet"]}
{"id": "C115", "title": "Interaction graph of a layer", "statement": "Layer::constructInteractionGraph, called for a gate on one qubit with one control, returns the graph that has an edge between two qubits, labelled with the operation, iff an executable operation of this type with one control acts on them; for other types or numbers of controls it throws. Layer::getExecutablesOfType returns exactly the executable operations with the type and number of controls.", "quantifier": "for every circuit, every set of operations executed so far, every type and number of controls and every order in which the unordered set of executable operations is visited", "why_tests_cant": "the tests build one interaction graph of one circuit; the result must not depend on the order of the unordered set of executable operations", "anchors": ["src/datastructures/Layer.cpp: constructInteractionGraph, getExecutablesOfType", "include/mqt-core/datastructures/Layer.hpp", "include/mqt-core/datastructures/UndirectedGraph.hpp: addEdge"]}
{"id": "C116", "title": "Random Clifford circuits", "statement": "append1QClifford maps the indices 0 to 23 to the 24 Clifford operations on one qubit, and append2QClifford maps the indices 0 to 11519 to the 11520 Clifford operations on two qubits, each exactly once up to a global phase. Every operation added by createRandomCliffordCircuit is a Clifford operation on qubits of the circuit.", "quantifier": "for every index, every pair of different qubits, every number of qubits from 1 on, every depth and every sequence of random numbers", "why_tests_cant": "the tests simulate random circuits or build their functionality, and look only at whether this throws; that some Clifford operations are never drawn shows only when all indices are compared", "anchors": ["src/algorithms/RandomCliffordCircuit.cpp: append1QClifford, append2QClifford, createRandomCliffordCircuit"]}
{"id": "C117", "title": "Rounding of phases to multiples of \u03c0/2", "statement": "roundToClifford turns a constant phase that is closer than the tolerance to a multiple of \u03c0/2 (modulo 2\u03c0) into the nearest such multiple, and leaves every other phase; it changes no multiple of \u03c0/2, and rounding twice is rounding once. ZXDiagram::approximateCliffords does this to every vertex and changes nothing else.", "quantifier": "for every phase, every tolerance, every diagram", "why_tests_cant": "the tests round four phases, close to \u03c0, \u03c0/2, -\u03c0/2 and 0 and with tolerances below 1e-6, none of them close to -\u03c0", "anchors": ["src/zx/Utils.cpp: roundToClifford", "include/mqt-core/zx/Rational.hpp: isCloseDivPi", "src/zx/ZXDiagram.cpp: approximateCliffords"]}
{"id": "C118", "title": "Fractions for numbers", "statement": "getLowestFraction ends and returns the closest fraction to the number whose denominator is between 1 and the largest one allowed, in lowest terms; if there is a fraction within the tolerance, it returns the one with the least denominator.", "quantifier": "for every number from 0 on, every tolerance and every largest denominator from 1 on", "why_tests_cant": "the tests look at a few numbers, most of them fractions with small denominators; which fractions are passed over shows only for all numbers", "anchors": ["src/dd/ComplexValue.cpp: getLowestFraction", "include/mqt-core/dd/ComplexValue.hpp: getLowestFraction"]}
{"id": "C119", "title": "AOD operations", "statement": "AodOperation: inverting a move exchanges its starts and ends and inverting an activation gives the deactivation with the same positions, and the other way round; inverting twice gives the operation back; the name is that of the type. getStarts, getEnds and getDistances return the values of a dimension in the order given, and getMaxDistance the largest distance. dumpOpenQASM writes the name of the type, the operations in parentheses and the qubits.", "quantifier": "for every operation, every dimension, every printing of numbers and qubits and every text written before", "why_tests_cant": "the tests invert one operation of each type and look at its starts and ends or at its type, and print one move; none prints an inverted operation", "anchors": ["src/ir/operations/AodOperation.cpp", "include/mqt-core/ir/operations/AodOperation.hpp"]}
{"id": "C120", "title": "Arithmetic, printing and hashing of complex numbers", "statement": "ComplexValue: the operators * and / compute the product and the quotient of complex numbers. printFormatted and toString (formatted) print, for every number, a text that denotes the number up to a small multiple of the tolerance. The hash of a complex number is defined, and numbers that count as equal (approximatelyEquals) have the same hash.", "quantifier": "for every pair of complex numbers (with a divisor other than 0), every number printed, every tolerance", "why_tests_cant": "the tests print a few multiples of 1, 1/\u221a2 and \u03c0 and three complex numbers, all far above the tolerance, and compare the text; no test names std::hash<ComplexValue>", "anchors": ["src/dd/ComplexValue.cpp", "include/mqt-core/dd/ComplexValue.hpp", "include/mqt-core/dd/CachedEdge.hpp"]}
{"id": "C121", "title": "Ancillary and garbage flags", "statement": "QuantumComputation keeps one ancillary and one garbage flag per qubit, and the number of ancillary qubits is the number of ancillary flags. New registers and qubits get the flags documented, inserting or removing a qubit moves the flags of the qubits behind it, marking a qubit or a range changes the flags of these qubits only, unifying the registers keeps flags and numbers in agreement, and reset removes the flags. No operation on qubits of the circuit is undefined behaviour.", "quantifier": "for every history of adding registers, ancillary qubits and qubits, removing and marking qubits, unifying and resetting", "why_tests_cant": "the tests add, remove and mark a few qubits of small circuits and look mostly at the numbers; no test unifies a circuit with ancillary qubits or adds registers after reset", "anchors": ["src/ir/QuantumComputation.cpp", "include/mqt-core/ir/QuantumComputation.hpp"]}
{"id": "C122", "title": "Every qubit lies in one register when qubits are added and removed", "statement": "removeQubit takes exactly the removed qubit out of the registers, whether the register is made smaller, split in two or deleted; addQubit and addAncillaryQubit put exactly the added qubit into a register, joining parts of split registers again; registers never overlap, are never empty and have different names; joining the parts terminates.", "quantifier": "for every map of registers, every qubit removed or added and every order in which the hash map is traversed", "why_tests_cant": "the tests remove at most three qubits of a register with a short name and add them again in one order; the names and the order of traversal are fixed", "anchors": ["src/ir/QuantumComputation.cpp: consolidateRegister, removeQubitfromQubitRegister, addQubitToQubitRegister"]}
{"id": "C123", "title": "All outputs of a circuit are measured", "statement": "appendMeasurementsAccordingToOutputPermutation makes sure that there are enough classical bits and appends a barrier on all qubits and, for every output, a measurement of its qubit into its bit; measureAll appends a barrier and measurements of all qubits into the bits of a new register, or of the bits there are, in order; nothing else is changed.", "quantifier": "for every circuit, with any registers, output permutation, garbage qubits and removed qubits, and every name of the register", "why_tests_cant": "the tests measure circuits of two qubits with a gap-free output permutation and numbered from 0; with a garbage qubit before an output, or after a qubit was removed, the functions throw with half of the operations appended", "anchors": ["src/ir/QuantumComputation.cpp: appendMeasurementsAccordingToOutputPermutation, measureAll, measure, barrier, addClassicalRegister, checkBitRange, checkQubitRange"]}
{"id": "C124", "title": "The depth of a circuit is the length of its longest path", "statement": "getDepth returns the length of the longest sequence of operations, in the order of the circuit with compound operations taken apart and without barriers, in which each operation has a qubit of the next; it has defined behaviour.", "quantifier": "for every circuit with any number of qubits, with gates, barriers, measurements, resets, classically controlled operations and nested compound operations", "why_tests_cant": "the tests compute the depth of four circuits of two qubits with at most five operations that are not barriers, none of them classically controlled or after qubits were removed; the longest path is over all sequences of operations", "anchors": ["src/ir/QuantumComputation.cpp: getDepth", "src/ir/operations/Operation.cpp: addDepthContribution", "src/ir/operations/NonUnitaryOperation.cpp: addDepthContribution", "src/ir/operations/CompoundOperation.cpp: addDepthContribution"]}
{"id": "C125", "title": "Operations are counted, last operations found and circuits made of compound operations", "statement": "getNindividualOps is the number of operations with compound operations taken apart, getNsingleQubitOps the number of gates among them with one target and no controls; isLastOperationOnQubit returns whether no later operation is on a qubit of the operation; the circuit that fromCompoundOperation makes has exactly the qubits and bits up to the largest ones its operations use, at least one each.", "quantifier": "for every circuit with gates, barriers, measurements, resets, classically controlled operations and nested compound operations on any qubits and bits", "why_tests_cant": "the tests count the operations of some fixed circuits, make one circuit of a compound operation with a gate and a measurement and never call isLastOperationOnQubit", "anchors": ["src/ir/QuantumComputation.cpp: getNindividualOps, getNsingleQubitOps, isLastOperationOnQubit, fromCompoundOperation"]}
{"id": "C126", "title": "The cache of noise operations is transparent", "statement": "stackOperation applies the gate of the matrix of the noise and its target, whether the gate is taken from the cache or made anew, without exception for all kinds of noise; after clear nothing is found; resize keeps the entries of the qubits there were and only these.", "quantifier": "for every history of noise operations, resizing and clearing, all sizes of the table, all matrices and targets", "why_tests_cant": "the test of the cache inserts four operations into a table of four qubits and clears it; the tests of stochastic noise have one noise model per package, with the configuration for stochastic noise", "anchors": ["include/mqt-core/dd/StochasticNoiseOperationTable.hpp: insert, lookup, clear, resize", "src/dd/NoiseFunctionality.cpp: stackOperation"]}
{"id": "C127", "title": "Indices, equality and hash of registers", "statement": "contains, getLocalIndex and getGlobalIndex agree on the indices of a register and are inverse to each other, and throw for all others; getEndIndex is the last index; registers that compare equal have the same name and the same indices, and the same hash; circuits whose registers are on different qubits are not equal.", "quantifier": "for every register whose indices, and the one behind the last, fit into the type of indices, of qubits (32 bits) and of bits (64 bits), and every index", "why_tests_cant": "the tests look at the starts and sizes of a few registers and compare circuits that differ in the number of qubits, the layout or operations, not registers with different starts", "anchors": ["include/mqt-core/ir/Register.hpp: contains, getLocalIndex, getGlobalIndex, getEndIndex, operator==, std::hash", "src/ir/QuantumComputation.cpp: operator=="]}
