{
 "claims": [
  {
   "property": "C01",
   "status": "proved",
   "theorems": [
    "MQT.DSU.c01_unionFind_connectivity",
    "MQT.DSU.c01_unknown_element_joins_default"
   ],
   "note": "find/union history; second theorem records that an unknown element is silently default-inserted"
  },
  {
   "property": "C02",
   "status": "proved",
   "theorems": [
    "MQT.DG.c02_directedGraph_bookkeeping"
   ],
   "note": ""
  },
  {
   "property": "C03",
   "status": "partial",
   "theorems": [
    "MQT.DAG.c03_reachability_sound_partial",
    "MQT.DAG.c03_reachability_exact_partial",
    "MQT.DAG.c03_not_complete",
    "MQT.DAG.c03_cycle_accepted"
   ],
   "note": "The full claim is false for the code: the closure update misses pairs (c03_not_complete) and a cycle can be accepted (c03_cycle_accepted). Proved: soundness for all histories, exactness for histories where every new edge leaves a vertex without predecessors or enters one without successors (Tame)."
  },
  {
   "property": "C04",
   "status": "proved",
   "theorems": [
    "MQT.DAG.c04_topological_order",
    "MQT.DAG.c04_topological_order_tame"
   ],
   "note": ""
  },
  {
   "property": "C05",
   "status": "proved",
   "theorems": [
    "MQT.UG.c05_undirectedGraph",
    "MQT.UG.c05_selfLoop_not_adjacent"
   ],
   "note": "second theorem records that isAdjacent(v,v) is false for a self loop"
  },
  {
   "property": "C06",
   "status": "proved",
   "theorems": [
    "MQT.SymMat.c06_symmetricMatrix"
   ],
   "note": ""
  },
  {
   "property": "C07",
   "status": "partial",
   "theorems": [
    "MQT.NA.c07_validate_iff_consistent_partial",
    "MQT.NA.c07_duplicate_load_accepted",
    "MQT.NA.c07_loaded_order_not_preserved",
    "MQT.NA.c07_unlocated_atom_accepted"
   ],
   "note": "Exact characterisation of validate; missing: loads/stores without targets may name an atom twice (counterexample proved)"
  },
  {
   "property": "C08",
   "status": "partial",
   "theorems": [
    "MQT.NA.c08_location_order_partial",
    "MQT.NA.c08_ge_is_le"
   ],
   "note": "operator>= decides <= (proved); everything else holds"
  },
  {
   "property": "C09",
   "status": "proved",
   "theorems": [
    "MQT.NA.c09_location_after_operation"
   ],
   "note": ""
  },
  {
   "property": "C10",
   "status": "partial",
   "theorems": [
    "MQT.Mem.c10_memoryManager_partial",
    "MQT.Mem.c10_growth_factor_two",
    "MQT.Mem.c10_empty_manager_ub"
   ],
   "note": "Full statement for managers with a positive initial size; the empty manager is undefined behaviour (witness theorem)."
  },
  {
   "property": "C100",
   "status": "partial",
   "theorems": [
    "MQT.DD.c100_vector_partial",
    "MQT.DD.c100_matrix_partial",
    "MQT.DD.c100_terminal"
   ],
   "note": "Proved for all diagrams other than terminals; these are read back as zero (disproved with witness). Numbers and line syntax are not modelled."
  },
  {
   "property": "C101",
   "status": "partial",
   "theorems": [
    "MQT.DD.c101_vector_partial",
    "MQT.DD.c101_empty_stack",
    "MQT.DD.c101_matrix"
   ],
   "note": "Proved for states of at least three qubits; disproved for smaller states (undefined behaviour) and for matrices (wrong result), with witnesses."
  },
  {
   "property": "C102",
   "status": "partial",
   "theorems": [
    "MQT.QASM.Program.c102_program_partial",
    "MQT.QASM.Program.c102_exact",
    "MQT.QASM.Program.c102_unambiguous",
    "MQT.QASM.Program.c102_else",
    "MQT.QASM.Program.c102_text_partial",
    "MQT.QASM.Program.c102_kinds",
    "MQT.QASM.Program.c102_include_missing",
    "MQT.QASM.Program.c102_include_malformed",
    "MQT.QASM.Program.c102_include_twice",
    "MQT.QASM.Program.c102_include_last",
    "MQT.QASM.Program.c102_include_nested",
    "MQT.QASM.Program.c102_gate_parentheses",
    "MQT.QASM.Program.c102_version",
    "MQT.QASM.Program.c102_measure"
   ],
   "note": "Every text of a program is read as that program, and without includes nothing else is read (the code also takes a comma after the last of a list, an empty index and an empty barrier). Fails for an include directly after that of stdgates.inc or at the end, for a gate with empty parentheses, for an integer version, and for a measurement without a result (all proved). Indices inside of expressions are not modelled."
  },
  {
   "property": "C103",
   "status": "partial",
   "theorems": [
    "MQT.QASM.Print.c103_text_partial",
    "MQT.QASM.Print.c103_same_text",
    "MQT.QASM.Print.c103_measures",
    "MQT.QASM.Print.c103_gates3",
    "MQT.QASM.Print.c103_gates2",
    "MQT.QASM.Print.c103_included",
    "MQT.QASM.Print.c103_keyword",
    "MQT.QASM.Print.c103_empty",
    "MQT.QASM.Print.c103_unnamed",
    "MQT.QASM.Print.c103_unnamed_text"
   ],
   "note": "Registers named as keywords, types without a name in OpenQASM and the empty circuit in OpenQASM 3 are excluded, and proved not to be read. The digits of a printed number are arbitrary."
  },
  {
   "property": "C104",
   "status": "partial",
   "theorems": [
    "MQT.QASM.TypeCheck.c104_expression_partial",
    "MQT.QASM.TypeCheck.c104_condition_partial",
    "MQT.QASM.TypeCheck.c104_program_partial",
    "MQT.QASM.TypeCheck.c104_kept_partial",
    "MQT.QASM.TypeCheck.c104_declared",
    "MQT.QASM.TypeCheck.c104_no_ub_partial",
    "MQT.QASM.TypeCheck.c104_narrowed",
    "MQT.QASM.TypeCheck.c104_widened",
    "MQT.QASM.TypeCheck.c104_not_rejected",
    "MQT.QASM.TypeCheck.c104_null",
    "MQT.QASM.TypeCheck.c104_builtins",
    "MQT.QASM.TypeCheck.c104_twice"
   ],
   "note": "Proved for expressions whose identifiers are known and have separate types, and for programs without branches whose expressions are literals. The whole claim is false: c104_narrowed, c104_widened and c104_not_rejected (indexing or comparing changes the type of the register), c104_null (null pointer), c104_builtins, c104_twice are witnesses."
  },
  {
   "property": "C105",
   "status": "partial",
   "theorems": [
    "MQT.QASM.Import.c105_import_partial",
    "MQT.QASM.Import.c105_gate",
    "MQT.QASM.Import.c105_standard",
    "MQT.QASM.Import.c105_same_name",
    "MQT.QASM.Import.c105_builtin_name"
   ],
   "note": "Proved for circuits with at least one qubit and one output, whose registers have distinct names that are neither keywords nor constants, for the operations of C63 and C96. It fails for registers that share a name and for registers named as a constant."
  },
  {
   "property": "C106",
   "status": "partial",
   "theorems": [
    "MQT.Opt.c106_exact_partial",
    "MQT.Opt.c106_between",
    "MQT.Opt.c106_compound",
    "MQT.Opt.c106_top_partial",
    "MQT.Opt.c106_again_partial",
    "MQT.Opt.c106_meaning",
    "MQT.Opt.c106_identities",
    "MQT.Opt.c106_nested"
   ],
   "note": "Exactness and idempotence are proved for circuits in which no compound operation is in another, and fail otherwise (c106_nested); that nothing else is lost and that the meaning is kept is proved for all circuits."
  },
  {
   "property": "C107",
   "status": "partial",
   "theorems": [
    "MQT.ZX.c107_graphlike_partial",
    "MQT.ZX.c107_parallel",
    "MQT.ZX.c107_adjoint_partial",
    "MQT.ZX.c107_adjoint_phase",
    "MQT.ZX.c107_twice",
    "MQT.ZX.c107_global"
   ],
   "note": "toGraphlike and adjoint. Partial: parallel edges break toGraphlike (c107_parallel), a global phase breaks adjoint (c107_global)."
  },
  {
   "property": "C108",
   "status": "partial",
   "theorems": [
    "MQT.ZX.c108_concat_partial",
    "MQT.ZX.c108_phase_partial",
    "MQT.ZX.c108_rejected",
    "MQT.ZX.c108_global",
    "MQT.ZX.c108_cup"
   ],
   "note": "Proved for all pairs of diagrams whose outputs (of the first) and inputs (of the second) are ends of single edges leading to other vertices, when the second has no global phase; with a global phase the result is off by its square. Fails for a second diagram with a global phase and for inputs that are joined with each other. Concatenation of a diagram with itself (the same object) is not covered."
  },
  {
   "property": "C109",
   "status": "partial",
   "theorems": [
    "MQT.ZX.c109_iff",
    "MQT.ZX.c109_total",
    "MQT.ZX.c109_few",
    "MQT.ZX.c109_entry",
    "MQT.ZX.c109_sound_partial",
    "MQT.ZX.c109_hadamard",
    "MQT.ZX.c109_scalar"
   ],
   "note": "The diagrams that are accepted are characterised, and their linear maps computed, for all diagrams. They are the identity if the edges are plain and there are no spiders. Fails for a Hadamard edge between an input and an output, and for a spider with phase pi without edges. With fewer outputs than inputs the list of outputs may be read beyond its end (c109_few)."
  },
  {
   "property": "C11",
   "status": "partial",
   "theorems": [
    "MQT.UT.c11_uniqueTable_partial",
    "MQT.UT.c11_garbageCollect",
    "MQT.UT.c11_constructor_without_buckets"
   ],
   "note": "Full statement for tables created with 0 variables and resized (as Package does); the constructor with nVars > 0 creates tables without buckets (witness theorem)."
  },
  {
   "property": "C110",
   "status": "partial",
   "theorems": [
    "MQT.ZX.c110_ancilla_partial",
    "MQT.ZX.c110_edges",
    "MQT.ZX.c110_stale"
   ],
   "note": "The linear map of the result is proved for all diagrams and all inputs and outputs. Fails: the qubits of the remaining inputs are not renumbered, so that concatenation with the result is undefined."
  },
  {
   "property": "C111",
   "status": "partial",
   "theorems": [
    "MQT.DD.c111_plain_partial",
    "MQT.DD.c111_mirror_partial",
    "MQT.DD.c111_general",
    "MQT.DD.c111_identity",
    "MQT.DD.c111_swap",
    "MQT.DD.c111_drop",
    "MQT.DD.c111_terminal"
   ],
   "note": "Proved for all states with at least one qubit and no permutation, or one that is unchanged when the qubits are counted from the other end; what is computed otherwise is proved as well. Fails for other permutations (exchange of two of three qubits, dropped qubits) and for a state without qubits. Exact arithmetic."
  },
  {
   "property": "C112",
   "status": "partial",
   "theorems": [
    "MQT.DD.c112_small_partial",
    "MQT.DD.c112_diagonal",
    "MQT.DD.c112_accepts",
    "MQT.DD.c112_one_partial",
    "MQT.DD.c112_identity",
    "MQT.DD.c112_zero",
    "MQT.DD.c112_factor"
   ],
   "note": "Bound of the entries off the diagonal for all tolerances and garbage qubits; exact for diagonal matrices; exact for tolerance 0 with the check of the diagonal. The weight of the root is ignored by the code: the zero matrix and multiples of the identity are accepted."
  },
  {
   "property": "C113",
   "status": "partial",
   "theorems": [
    "MQT.ZX.c113_removes",
    "MQT.ZX.c113_val",
    "MQT.ZX.c113_same_partial",
    "MQT.ZX.c113_nothing_partial",
    "MQT.ZX.c113_zero",
    "MQT.ZX.c113_phase"
   ],
   "note": "Termination, the removed and the kept vertices and the exact factor of the linear map are proved for all diagrams; the factor is positive only if the removed vertices denote a positive number. Counterexamples with factor 0 and with a lost phase."
  },
  {
   "property": "C114",
   "status": "partial",
   "theorems": [
    "MQT.ZX.c114_vertices",
    "MQT.ZX.c114_edges_partial",
    "MQT.ZX.c114_empty",
    "MQT.ZX.c114_adj_partial",
    "MQT.ZX.c114_connected",
    "MQT.ZX.c114_deleted"
   ],
   "note": "Vertices and neighbours for all diagrams; edges for all diagrams with a vertex (the empty diagram is undefined behaviour); the adjacency matrix for diagrams without deleted vertices (otherwise rows that do not exist are written)."
  },
  {
   "property": "C115",
   "status": "partial",
   "theorems": [
    "MQT.Layer.c115_throws",
    "MQT.Layer.c115_graph_partial",
    "MQT.Layer.c115_layer_partial",
    "MQT.Layer.c115_executables",
    "MQT.Layer.c115_twice",
    "MQT.Layer.c115_thrice",
    "MQT.Layer.c115_is",
    "MQT.Layer.c115_missing"
   ],
   "note": "When the construction throws, and the graph otherwise, for all circuits and all orders of the executable operations; always succeeds for layers constructed without commutation (under the assumptions of C88). Fails when two executable operations of the type act on the same qubits. Not modelled: compound and classically controlled operations."
  },
  {
   "property": "C116",
   "status": "partial",
   "theorems": [
    "MQT.Alg.Clifford.c116_clifford",
    "MQT.Alg.Clifford.c116_one",
    "MQT.Alg.Clifford.c116_one_complete",
    "MQT.Alg.Clifford.c116_two_partial",
    "MQT.Alg.Clifford.c116_missing",
    "MQT.Alg.Clifford.c116_repeated",
    "MQT.Alg.Clifford.c116_inclusive",
    "MQT.Alg.Clifford.c116_qubits"
   ],
   "note": "Every index gives a Clifford operation; for one qubit each exactly once; for two qubits the indices below 5760 are pairwise different. It fails from 5760 on: indices are repeated and an operation is never produced (c116_repeated, c116_missing), and the range of the indices is one too long (c116_inclusive). Random numbers are given."
  },
  {
   "property": "C117",
   "status": "partial",
   "theorems": [
    "MQT.ZX.c117_sound",
    "MQT.ZX.c117_angle",
    "MQT.ZX.c117_complete_partial",
    "MQT.ZX.c117_minus_pi",
    "MQT.ZX.c117_fixed",
    "MQT.ZX.c117_idempotent",
    "MQT.ZX.c117_large_tolerance",
    "MQT.ZX.c117_diagram"
   ],
   "note": "Phases are rounded only to multiples closer than the tolerance, the angle changes by less than the tolerance, and for tolerances up to 1/4 phases close to 0, π/2, -π/2 and π are rounded to them. It fails for phases just above -π (c117_minus_pi) and, with tolerances above 1/2, for the choice of the nearest multiple (c117_large_tolerance). Multiples of π/2 stay and rounding is idempotent for tolerances up to 1/2. Doubles are real numbers."
  },
  {
   "property": "C118",
   "status": "partial",
   "theorems": [
    "MQT.DD.Fraction.c118_lowest",
    "MQT.DD.Fraction.c118_best_partial",
    "MQT.DD.Fraction.c118_default",
    "MQT.DD.Fraction.c118_not_closest",
    "MQT.DD.Fraction.c118_tolerance",
    "MQT.DD.Fraction.c118_no_denominator"
   ],
   "note": "The loop ends with a fraction in lowest terms and an allowed denominator; if a fraction lies within the tolerance, the result does and has the least denominator, for tolerances below 1/(2(max+1)), in particular the default. It fails that the result is the closest fraction otherwise (c118_not_closest) and that the denominator is least for large tolerances (c118_tolerance). Doubles are real numbers, uint64 natural numbers."
  },
  {
   "property": "C119",
   "status": "partial",
   "theorems": [
    "MQT.NA.Aod.c119_invert_twice",
    "MQT.NA.Aod.c119_invert",
    "MQT.NA.Aod.c119_max_distance",
    "MQT.NA.Aod.c119_lists",
    "MQT.NA.Aod.c119_name",
    "MQT.NA.Aod.c119_invert_name_partial",
    "MQT.NA.Aod.c119_text",
    "MQT.NA.Aod.c119_inverted_text",
    "MQT.NA.Aod.c119_empty_text"
   ],
   "note": "All but the name after inversion, which fails for activations and deactivations (c119_inverted_text), and the text without operations or qubits (c119_empty_text). Controls are not modelled; numbers are real, and how they and the qubits are printed is given."
  },
  {
   "property": "C12",
   "status": "proved",
   "theorems": [
    "MQT.Ref.c12_refcount_gc",
    "MQT.Ref.c12_gc_frame",
    "MQT.Ref.c12_saturated_leaks"
   ],
   "note": "Safety for all saturation bounds, exactness while no count is saturated; saturated nodes leak (witness theorem)."
  },
  {
   "property": "C120",
   "status": "partial",
   "theorems": [
    "MQT.DD.Print.c120_mul",
    "MQT.DD.Print.c120_div",
    "MQT.DD.Print.c120_form",
    "MQT.DD.Print.c120_sign",
    "MQT.DD.Print.c120_real",
    "MQT.DD.Print.c120_complex_partial",
    "MQT.DD.Print.c120_tiny",
    "MQT.DD.Print.c120_hash",
    "MQT.DD.Print.c120_hash_negative",
    "MQT.DD.Print.c120_hash_equal"
   ],
   "note": "Real numbers for double. Proved: product, quotient, the form in which real numbers are printed and their value, the hash of numbers that are not negative, and printing of complex numbers except those whose real part is within the tolerance of 0 while the imaginary part is not but is close to it or its opposite; for these, for hashes of negative numbers and for hashes of approximately equal numbers the property fails and the negation is proved. Not modelled: the characters printed, murmur64 and combineHash."
  },
  {
   "property": "C121",
   "status": "partial",
   "theorems": [
    "MQT.IR.Flags.c121_empty",
    "MQT.IR.Flags.c121_addReg",
    "MQT.IR.Flags.c121_refused",
    "MQT.IR.Flags.c121_addAncReg",
    "MQT.IR.Flags.c121_addAnc",
    "MQT.IR.Flags.c121_addQubit",
    "MQT.IR.Flags.c121_remove_partial",
    "MQT.IR.Flags.c121_setAnc",
    "MQT.IR.Flags.c121_setGarb",
    "MQT.IR.Flags.c121_setAncs",
    "MQT.IR.Flags.c121_setGarbs",
    "MQT.IR.Flags.c121_unify_none",
    "MQT.IR.Flags.c121_history_partial",
    "MQT.IR.Flags.c121_remove_size",
    "MQT.IR.Flags.c121_unify",
    "MQT.IR.Flags.c121_reset",
    "MQT.IR.Flags.c121_reset_none"
   ],
   "note": "Flags and numbers proved for all histories of operations on qubits of the circuit without unifyQuantumRegisters for circuits with ancillary qubits and without reset; for these two, and for the size of the vectors after removeQubit, the property fails and the negation is proved. A removed qubit in an ancillary register is assumed to be flagged. Registers, layouts and the exceptions that depend on them are not part of this model."
  },
  {
   "property": "C122",
   "status": "partial",
   "theorems": [
    "MQT.IR.Registers.c122_empty",
    "MQT.IR.Registers.c122_remove",
    "MQT.IR.Registers.c122_consolidate",
    "MQT.IR.Registers.c122_add_partial",
    "MQT.IR.Registers.c122_lost",
    "MQT.IR.Registers.c122_names",
    "MQT.IR.Registers.c122_parts"
   ],
   "note": "Removal and joining proved for all maps of registers with different names in which there is no part (name with _l or _h appended) of a register next to the register; these assumptions are preserved. Addition proved if moreover no register has the name of the new one or of a part of it; without this the property fails and the negation is proved, as it is for registers that the user has named like parts."
  },
  {
   "property": "C123",
   "status": "partial",
   "theorems": [
    "MQT.IR.MeasureAll.c123_qubits",
    "MQT.IR.MeasureAll.c123_append_returns",
    "MQT.IR.MeasureAll.c123_append_ops",
    "MQT.IR.MeasureAll.c123_append_throws",
    "MQT.IR.MeasureAll.c123_append_partial",
    "MQT.IR.MeasureAll.c123_gap",
    "MQT.IR.MeasureAll.c123_measureAll_new",
    "MQT.IR.MeasureAll.c123_measureAll_old",
    "MQT.IR.MeasureAll.c123_measureAll_gap"
   ],
   "note": "Fails for circuits with gaps in the numbers of the outputs or of the qubits (c123_gap, c123_measureAll_gap); otherwise proved. The output permutation is any list of entries; numbers of qubits and bits are natural numbers."
  },
  {
   "property": "C124",
   "status": "partial",
   "theorems": [
    "MQT.IR.Depth.c124_defined_partial",
    "MQT.IR.Depth.c124_depth_partial",
    "MQT.IR.Depth.c124_classic",
    "MQT.IR.Depth.c124_barrier",
    "MQT.IR.Depth.c124_no_qubits",
    "MQT.IR.Depth.c124_removed"
   ],
   "note": "Proved for circuits whose classically controlled operations are gates or single measurements and resets; fails for classically controlled compound operations and barriers, without qubits and after removing qubits (witnesses)."
  },
  {
   "property": "C125",
   "status": "partial",
   "theorems": [
    "MQT.IR.Count.c125_individual_partial",
    "MQT.IR.Count.c125_individual_nested",
    "MQT.IR.Count.c125_single_partial",
    "MQT.IR.Count.c125_single_barrier",
    "MQT.IR.Count.c125_single_nested",
    "MQT.IR.Count.c125_last_partial",
    "MQT.IR.Count.c125_last_end",
    "MQT.IR.Count.c125_last_removed",
    "MQT.IR.Count.c125_from_qubits_partial",
    "MQT.IR.Count.c125_from_bits_partial",
    "MQT.IR.Count.c125_from_nested",
    "MQT.IR.Count.c125_from_classic"
   ],
   "note": "Proved without compound operations in compound operations (counts), for operations on qubits below the number of qubits (last operation), and without classically controlled compound operations, nested measurements and classical control (circuit of a compound operation); fails otherwise (witnesses)."
  },
  {
   "property": "C126",
   "status": "partial",
   "theorems": [
    "MQT.DD.NoiseCache.c126_transparent_partial",
    "MQT.DD.NoiseCache.c126_defined",
    "MQT.DD.NoiseCache.c126_found",
    "MQT.DD.NoiseCache.c126_clear",
    "MQT.DD.NoiseCache.c126_resize",
    "MQT.DD.NoiseCache.c126_two_models",
    "MQT.DD.NoiseCache.c126_default"
   ],
   "note": "Proved for one noise model per package; with two the second applies the operations of the first, and a table with the default configuration throws (witnesses). makeGateDD is any function of the matrix and the target."
  },
  {
   "property": "C127",
   "status": "partial",
   "theorems": [
    "MQT.IR.Register.c127_contains",
    "MQT.IR.Register.c127_local",
    "MQT.IR.Register.c127_global",
    "MQT.IR.Register.c127_inverse",
    "MQT.IR.Register.c127_end_partial",
    "MQT.IR.Register.c127_end_empty",
    "MQT.IR.Register.c127_equal_partial",
    "MQT.IR.Register.c127_equal_other_qubits",
    "MQT.IR.Register.c127_exchanged",
    "MQT.IR.Register.c127_registers"
   ],
   "note": "Indices proved; the end index of an empty register is wrong, and equality ignores the start, unlike the hash (witnesses)."
  },
  {
   "property": "C13",
   "status": "partial",
   "theorems": [
    "MQT.CT.c13_computeTable_exact_partial",
    "MQT.CT.c13_computeTable_tolerance",
    "MQT.CT.c13_memo_transparent",
    "MQT.CT.c13_unaryTable_partial",
    "MQT.CT.c13_tolerance_hit",
    "MQT.CT.c13_unary_clear_out_of_range"
   ],
   "note": "Proved for tables with exactly compared operands (node pointers) incl. memoised recursion; tables keyed by CachedEdge may answer within the tolerance (witness), unary tables with more than NBUCKET buckets go out of range after clear (witness)."
  },
  {
   "property": "C14",
   "status": "partial",
   "theorems": [
    "MQT.PGC.c14_no_stale_entries_partial",
    "MQT.PGC.c14_clearComputeTables",
    "MQT.PGC.c14_stale_conjugateVector",
    "MQT.PGC.c14_stale_addMagnitudes",
    "MQT.PGC.c14_return_ignores_density"
   ],
   "note": "Holds for 14 of 17 tables; false for conjugateVector, vectorAddMagnitudes, matrixAddMagnitudes (witness theorems)."
  },
  {
   "property": "C15",
   "status": "partial",
   "theorems": [
    "MQT.RT.c15_within_tolerance",
    "MQT.RT.c15_lookup_stable_partial",
    "MQT.RT.c15_border_lookup_unstable",
    "MQT.RT.c15_intermediate_lookup_changes_entry",
    "MQT.RT.c15_tails_and_collection",
    "MQT.RT.c15_entries_kept"
   ],
   "note": "Tolerance and sign proved in full; stability holds except for new entries near a border of a non-empty bucket (witness) and not across other lookups (witness)."
  },
  {
   "property": "C16",
   "status": "proved",
   "theorems": [
    "MQT.Tag.c16_tagged_pointers",
    "MQT.Tag.c16_negative_zero"
   ],
   "note": "All 64-bit aligned pointers."
  },
  {
   "property": "C17",
   "status": "partial",
   "theorems": [
    "MQT.IR.c17_names_roundtrip_partial",
    "MQT.IR.c17_names_unlisted",
    "MQT.IR.c17_names_roundtrip_fails",
    "MQT.IR.c17_codes_distinct",
    "MQT.IR.c17_diagonal_single",
    "MQT.IR.c17_diagonal_two",
    "MQT.IR.c17_flip_inverse"
   ],
   "note": "Name round trip holds for all types except a_true, a_false, multi_a_true, multi_a_false, which opTypeFromString does not know (negation proved). Diagonal flag and inverse flag parts are proved in full for all gate types and parameters."
  },
  {
   "property": "C18",
   "status": "proved",
   "theorems": [
    "MQT.IR.c18_single_unitary",
    "MQT.IR.c18_two_unitary",
    "MQT.IR.c18_no_matrix"
   ],
   "note": "All gate types, all real parameters (exact reals)."
  },
  {
   "property": "C19",
   "status": "proved",
   "theorems": [
    "MQT.IR.c19_invert_undoes",
    "MQT.IR.c19_simulator_inverse_undoes"
   ],
   "note": "Both implementations of inversion; all controls and targets; exact reals."
  },
  {
   "property": "C20",
   "status": "proved",
   "theorems": [
    "MQT.IR.c20_commutes_sound",
    "MQT.IR.c20_compound_commutes_sound"
   ],
   "note": "Standard and arbitrarily nested compound operations."
  },
  {
   "property": "C21",
   "status": "proved",
   "theorems": [
    "MQT.IR.ParseU.c21_canonical_gate",
    "MQT.IR.ParseU.c21_other_types_untouched",
    "MQT.IR.ParseU.c21_exact_rules",
    "MQT.IR.ParseU.c21_always_a_gate",
    "MQT.IR.ParseU.c21_huge_angle_lost"
   ],
   "note": "Stored matrix within 39*tolerance of the requested one entry by entry; a gate is always stored for angles below pi/tol - tol; beyond that checkFractionPi stores an infinite angle (proved)."
  },
  {
   "property": "C22",
   "status": "partial",
   "theorems": [
    "MQT.IR.c22_invert_ops_undoes",
    "MQT.IR.c22_invert_qc_phase",
    "MQT.IR.c22_invert_undoes_partial",
    "MQT.IR.c22_invert_fails"
   ],
   "note": "Operation list: proved in full. Whole circuit: proved up to twice the global phase; invert does not negate the global phase, so the full statement is false (witness: global phase pi/2)."
  },
  {
   "property": "C23",
   "status": "partial",
   "theorems": [
    "MQT.Opt.c23_swap_reconstruction_partial",
    "MQT.Opt.c23_fails_around_controlled_blocks"
   ],
   "note": "Proved for every circuit (nested compounds, measurements, resets, classical control, any controls) in which no classically controlled operation wraps a compound operation. For those the property is false and the negation is proved (getUsedQubits of such an operation is empty)."
  },
  {
   "property": "C24",
   "status": "partial",
   "theorems": [
    "MQT.Opt.c24_cancel_cnots_partial",
    "MQT.Opt.c24_fails_around_controlled_blocks"
   ],
   "note": "Same scope and same counterexample as C23."
  },
  {
   "property": "C25",
   "status": "partial",
   "theorems": [
    "MQT.Opt.c25_decompose_swap_partial",
    "MQT.Opt.c25_fails_for_controlled_swap"
   ],
   "note": "Proved for all circuits without controlled SWAPs at the places the pass rewrites; for controlled SWAPs the property is false (controls dropped), negation proved."
  },
  {
   "property": "C26",
   "status": "proved",
   "theorems": [
    "MQT.Opt.c26_replace_mcx"
   ],
   "note": "All circuits, any nesting."
  },
  {
   "property": "C27",
   "status": "partial",
   "theorems": [
    "MQT.Opt.c27_remove_diagonal_partial",
    "MQT.Opt.c27_remove_diagonal_norm_partial",
    "MQT.Opt.c27_fails_for_two_target_gates",
    "MQT.Opt.c27_undefined_behaviour"
   ],
   "note": "Whenever the pass returns: proved for circuits without compound operations whose diagonal gates have a single target (any controls), with measurements anywhere, resets and classical control. For two-target diagonal gates the property is false (negation proved); undefined behaviour on simple circuits is proved too."
  },
  {
   "property": "C28",
   "status": "partial",
   "theorems": [
    "MQT.Opt.c28_elide_permutations_partial",
    "MQT.Opt.c28_fails_for_controlled_blocks"
   ],
   "note": "Proved for all circuits (any nesting and layouts) in which no classically controlled operation wraps a compound operation; for those the property is false (the wrapped operations are not renamed), negation proved."
  },
  {
   "property": "C29",
   "status": "proved",
   "theorems": [
    "MQT.Opt.c29_flatten_all",
    "MQT.Opt.c29_flatten"
   ],
   "note": "All circuits, any nesting, both modes."
  },
  {
   "property": "C30",
   "status": "partial",
   "theorems": [
    "MQT.IR.c30_copy_partial",
    "MQT.IR.c30_copy_bit",
    "MQT.IR.c30_copy_loses_kind",
    "MQT.IR.c30_assign_mixes"
   ],
   "note": "Holds for bit-controlled operations and for register conditions with ==; for every other comparison kind the property is false and the negation is proved."
  },
  {
   "property": "C31",
   "status": "partial",
   "theorems": [
    "MQT.IR.c31_equals_sound_partial",
    "MQT.IR.c31_equals_nondiagonal",
    "MQT.IR.c31_equals_refl",
    "MQT.IR.c31_equals_fails"
   ],
   "note": "Sound for every type except controlled rz/rzz, where exchanging control and target compares equal although the gates differ (negation proved)."
  },
  {
   "property": "C32",
   "status": "partial",
   "theorems": [
    "MQT.IR.Layout.c32_layout_injective_partial",
    "MQT.IR.Layout.c32_fails_on_insert",
    "MQT.IR.Layout.c32_fails_after_remove",
    "MQT.IR.Layout.c32_fails_with_ancillae"
   ],
   "note": "Injectivity proved for all histories that append logical qubits at the end and remove only the last one; for the other histories the property is false and three witnesses are proved."
  },
  {
   "property": "C33",
   "status": "proved",
   "theorems": [
    "MQT.DD.c33_vector",
    "MQT.DD.c33_vector_normalised",
    "MQT.DD.c33_vector_factor",
    "MQT.DD.c33_vector_variants",
    "MQT.DD.c33_matrix",
    "MQT.DD.c33_matrix_normalised"
   ],
   "note": "Node creation for vectors and matrices, both variants of the vector normalisation; exact complex weights (tolerance 0). Equal inputs give equal outputs because the model is a function and nodes are trees."
  },
  {
   "property": "C34",
   "status": "partial",
   "theorems": [
    "MQT.DD.c34_shape_partial",
    "MQT.DD.c34_vector",
    "MQT.DD.c34_matrix",
    "MQT.DD.c34_vector_multiple"
   ],
   "note": "Built is the closure under the modelled operations (states, gates, addition, multiplication, conjugation, Kronecker products, measurement, ancillary reduction, scaling) in exact arithmetic; kroneckers with an identity on top of the right factor and partial traces are excluded, see C39/C40."
  },
  {
   "property": "C35",
   "status": "proved",
   "theorems": [
    "MQT.DD.c35_vector",
    "MQT.DD.c35_matrix",
    "MQT.DD.c35_comm"
   ],
   "note": "add/add2 for vectors and matrices including skipped levels; the result is again of the shape the package builds, and undefined behaviour does not occur. Exact arithmetic."
  },
  {
   "property": "C36",
   "status": "proved",
   "theorems": [
    "MQT.DD.c36_matrix_matrix",
    "MQT.DD.c36_matrix_vector"
   ],
   "note": "multiply/multiply2 for matrix-matrix and matrix-vector including skipped levels. Exact arithmetic; density-matrix branches not modelled."
  },
  {
   "property": "C37",
   "status": "proved",
   "theorems": [
    "MQT.DD.c37_conjugate",
    "MQT.DD.c37_conjugate_twice",
    "MQT.DD.c37_conjugate_transpose",
    "MQT.DD.c37_conjugate_transpose_twice"
   ],
   "note": "Values and involution (equality of DDs, by canonicity). Exact arithmetic."
  },
  {
   "property": "C38",
   "status": "proved",
   "theorems": [
    "MQT.DD.c38_inner_product",
    "MQT.DD.c38_fidelity",
    "MQT.DD.c38_fails_without_qubits"
   ],
   "note": "For n >= 1 qubits. c38_fails_without_qubits: with no qubits the code returns 0 for every pair of scalars. Exact arithmetic."
  },
  {
   "property": "C39",
   "status": "partial",
   "theorems": [
    "MQT.DD.c39_vector",
    "MQT.DD.c39_matrix_partial",
    "MQT.DD.c39_matrix_effective",
    "MQT.DD.c39_matrix_wrong",
    "MQT.DD.c39_table_transparent",
    "MQT.DD.c39_table_wrong"
   ],
   "note": "Vectors: proved for all. Matrices: proved when the right operand is an identity/zero or has its root on its top level; false otherwise (skipped top levels), with witness; compute table key lacks the number of qubits, with witness."
  },
  {
   "property": "C40",
   "status": "partial",
   "theorems": [
    "MQT.DD.c40_trace",
    "MQT.DD.c40_partial_trace_partial",
    "MQT.DD.c40_partial_trace_low",
    "MQT.DD.c40_table_transparent",
    "MQT.DD.c40_underflow",
    "MQT.DD.c40_partial_trace_wrong",
    "MQT.DD.c40_zero_not_terminal"
   ],
   "note": "trace is proved for all matrices; partialTrace is proved for every shape in which no eliminated level is skipped above a kept node (in particular whenever only the lowest qubits are eliminated); outside of that the code is wrong or undefined (c40_underflow, c40_partial_trace_wrong), and a zero result keeps a non-terminal node (c40_zero_not_terminal)."
  },
  {
   "property": "C41",
   "status": "proved",
   "theorems": [
    "MQT.DD.c41_gate_matrix",
    "MQT.DD.c41_gate_action",
    "MQT.DD.c41_two_qubit_matrix",
    "MQT.DD.c41_two_qubit_action",
    "MQT.DD.c41_out_of_range"
   ],
   "note": "All matrices, controls, targets; exact arithmetic."
  },
  {
   "property": "C42",
   "status": "partial",
   "theorems": [
    "MQT.DD.c42_zero_state",
    "MQT.DD.c42_basis_state",
    "MQT.DD.c42_product_state",
    "MQT.DD.c42_ghz_state",
    "MQT.DD.c42_w_state",
    "MQT.DD.c42_from_vector",
    "MQT.DD.c42_from_vector_rejects",
    "MQT.DD.c42_get_vector",
    "MQT.DD.c42_round_trip_partial",
    "MQT.DD.c42_get_value",
    "MQT.DD.c42_short_vector_undefined",
    "MQT.DD.c42_zero_vector_collapses"
   ],
   "note": "Round trip for all non-zero vectors; the zero vector collapses to length 1 and makeBasisState with start > 0 reads past a short list (both proved as counterexamples)."
  },
  {
   "property": "C43",
   "status": "partial",
   "theorems": [
    "MQT.DD.c43_get_matrix",
    "MQT.DD.c43_get_value_partial",
    "MQT.DD.c43_terminal_wrong"
   ],
   "note": "getMatrix correct for all; getValueByIndex wrong for terminal matrices (off-diagonal entries), correct otherwise."
  },
  {
   "property": "C44",
   "status": "proved",
   "theorems": [
    "MQT.DD.c44_probabilities",
    "MQT.DD.c44_out_of_range_undefined",
    "MQT.DD.c44_measure_one",
    "MQT.DD.c44_measure_all_total",
    "MQT.DD.c44_measure_all_born",
    "MQT.DD.c44_assign"
   ],
   "note": "Probabilities, collapse and the Born rule (volume of the set of draws) with exact weights; draws are inputs in [0,1)."
  },
  {
   "property": "C45",
   "status": "partial",
   "theorems": [
    "MQT.Sim.c45_state_partial",
    "MQT.Sim.c45_left_partial",
    "MQT.Sim.c45_right_partial",
    "MQT.Sim.c45_zero",
    "MQT.Sim.c45_missing_value",
    "MQT.Sim.c45_missing_key"
   ],
   "note": "Proved for states and for matrices from either side when the target's keys and values occur in the current permutation. A target value that does not occur is silently replaced by the value of key 0 (disproved with witness); a missing key dereferences end()."
  },
  {
   "property": "C46",
   "status": "partial",
   "theorems": [
    "MQT.Sim.c46_simulate_partial",
    "MQT.Sim.c46_controlled_phase_ignored"
   ],
   "note": "Proved for unitary circuits without controlled global phases; the latter are simulated without their controls (disproved with witness). Garbage qubits: C99."
  },
  {
   "property": "C47",
   "status": "partial",
   "theorems": [
    "MQT.Sim.c47_recursive_partial",
    "MQT.Sim.c47_single_operation",
    "MQT.Sim.c47_empty"
   ],
   "note": "Proved for circuits with at least two operations (with garbage qubits: c99_recursive_partial); with a single operation the recursive version skips the output permutation and ancillary reduction (disproved with witness), with none it converts log2(0)."
  },
  {
   "property": "C48",
   "status": "partial",
   "theorems": [
    "MQT.IR.c48_register_partial",
    "MQT.IR.c48_bit",
    "MQT.IR.c48_inverted",
    "MQT.IR.c48_wide_register_undefined"
   ],
   "note": "Proved for every register of at most 64 bits and for single bits; for wider registers a set high bit is undefined behaviour (shift by 64), proved as a distinct outcome."
  },
  {
   "property": "C49",
   "status": "proved",
   "theorems": [
    "MQT.Alg.c49_ghz",
    "MQT.Alg.c49_zero_qubits",
    "MQT.Alg.c49_simulated"
   ],
   "note": "all n>=1; simulating the circuit yields exactly the diagram of makeGHZState; n = 0 throws"
  },
  {
   "property": "C50",
   "status": "partial",
   "theorems": [
    "MQT.Alg.c50_bernstein_vazirani_partial",
    "MQT.Alg.c50_too_long",
    "MQT.Alg.c50_length",
    "MQT.Alg.c50_iterative"
   ],
   "note": "both versions: only the hidden string has a nonzero branch, with amplitude 1; lengths above the 4096-bit bitset throw"
  },
  {
   "property": "C51",
   "status": "partial",
   "theorems": [
    "MQT.Alg.c51_qft_partial",
    "MQT.Alg.c51_basis",
    "MQT.Alg.c51_measured",
    "MQT.Alg.c51_iterative",
    "MQT.Alg.c51_iterative_round",
    "MQT.Alg.c51_reported",
    "MQT.Alg.c51_reported_not_transform"
   ],
   "note": "the circuit is the DFT; the declared output permutation reverses the result a second time, so simulate reports the bit-reversed DFT (disagreement, proved)"
  },
  {
   "property": "C52",
   "status": "proved",
   "theorems": [
    "MQT.Alg.c52_w_state",
    "MQT.Alg.c52_zero_qubits",
    "MQT.Alg.c52_simulated"
   ],
   "note": "all n>=1; simulating yields exactly the diagram of makeWState; n = 0 throws"
  },
  {
   "property": "C53",
   "status": "partial",
   "theorems": [
    "MQT.Alg.c53_grover_partial",
    "MQT.Alg.c53_measured",
    "MQT.Alg.c53_too_long"
   ],
   "note": "all n>=1 (n = 0 data qubits is not considered), all k; more than 128 data qubits throw"
  },
  {
   "property": "C54",
   "status": "partial",
   "theorems": [
    "MQT.Alg.c54_exact_partial",
    "MQT.Alg.c54_generated",
    "MQT.Alg.c54_iterative",
    "MQT.Alg.c54_iterative_exact"
   ],
   "note": "precision up to 64 (beyond, a 64-bit shift is undefined); the iterative circuit has the same amplitude for every phase and outcome"
  },
  {
   "property": "C55",
   "status": "partial",
   "theorems": [
    "MQT.Alg.c55_prepares_partial",
    "MQT.Alg.c55_clear",
    "MQT.Alg.c55_accepts_iff",
    "MQT.Alg.c55_zero_tolerance",
    "MQT.Alg.c55_large_tolerance"
   ],
   "note": "Exact arithmetic. For every normalised vector of length 2^n all sufficiently small tolerances give a circuit preparing exactly the vector, including the global phase; c55_clear states it for any tolerance that makes every comparison clear-cut. c55_large_tolerance shows the tolerance matters."
  },
  {
   "property": "C56",
   "status": "partial",
   "theorems": [
    "MQT.ZX.PiRational.c56_add",
    "MQT.ZX.PiRational.c56_sub",
    "MQT.ZX.PiRational.c56_neg",
    "MQT.ZX.PiRational.c56_mul",
    "MQT.ZX.PiRational.c56_construct_partial",
    "MQT.ZX.PiRational.c56_ofFrac_partial",
    "MQT.ZX.PiRational.c56_integers_partial",
    "MQT.ZX.PiRational.c56_div_partial",
    "MQT.ZX.PiRational.c56_divInt",
    "MQT.ZX.PiRational.c56_out_of_range",
    "MQT.ZX.PiRational.c56_div_out_of_range",
    "MQT.ZX.PiRational.c56_int_left_wrong",
    "MQT.ZX.PiRational.c56_ofReal_partial",
    "MQT.ZX.PiRational.c56_ofReal_overflow",
    "MQT.ZX.PiRational.c56_ofReal_huge",
    "MQT.ZX.PiRational.c56_compare"
   ],
   "note": "Sums, differences, negatives, products and integer quotients of phases in range are proved in range and congruent. Construction, integer arithmetic and division are always congruent but in range exactly when the exact value lies in (-3,3], because modPi corrects once; counterexamples proved. int - phase and int / phase compute the opposite order (proved). Construction from a double is in range and within 1e-9 pi when it succeeds; inputs with undefined behaviour or a division by zero are exhibited."
  },
  {
   "property": "C57",
   "status": "partial",
   "theorems": [
    "MQT.ZX.c57_step",
    "MQT.ZX.c57_history_partial",
    "MQT.ZX.c57_removeEdge_parallel",
    "MQT.ZX.c57_removeEdge_missing",
    "MQT.ZX.c57_removeVertex_twice",
    "MQT.ZX.c57_self_loop"
   ],
   "note": "Proved for histories on existing vertices without self loops where removeEdge meets exactly one edge and addEdgeParallelAware at most one; each operation refines a multigraph. Counterexamples for parallel/missing edges in removeEdge, double removeVertex and self loops. addEdgeParallelAware silently ignores an edge parallel to an edge of a boundary vertex."
  },
  {
   "property": "C58",
   "status": "partial",
   "theorems": [
    "MQT.ZX.c58_removeId_partial",
    "MQT.ZX.c58_fuseSpiders_partial",
    "MQT.ZX.c58_localComp_partial",
    "MQT.ZX.c58_pivotPauli_partial",
    "MQT.ZX.c58_pivot_partial",
    "MQT.ZX.c58_pivotGadget_partial",
    "MQT.ZX.c58_fuse_parallel"
   ],
   "note": "For diagrams with right bookkeeping, no parallel edges, normalised phases and at most one edge per boundary vertex (Good, preserved by every rule). c58_fuse_parallel shows that parallel edges have to be excluded. The factor is a positive real: the global phase is tracked exactly."
  },
  {
   "property": "C59",
   "status": "partial",
   "theorems": [
    "MQT.Sym.Expression.c59_add_partial",
    "MQT.Sym.Expression.c59_sub_partial",
    "MQT.Sym.Expression.c59_neg",
    "MQT.Sym.Expression.c59_mul_partial",
    "MQT.Sym.Expression.c59_div",
    "MQT.Sym.Expression.c59_divInt",
    "MQT.Sym.Expression.c59_mul_pi_partial",
    "MQT.Sym.Expression.c59_evaluate_iff",
    "MQT.Sym.Expression.c59_construct",
    "MQT.Sym.Expression.c59_plusConst",
    "MQT.Sym.Expression.c59_eq_partial",
    "MQT.Sym.Expression.c59_near_cancel",
    "MQT.Sym.Expression.c59_small_factor",
    "MQT.Sym.Expression.c59_eq_wrong",
    "MQT.Sym.Expression.c59_scalarPlus_wrong",
    "MQT.Sym.Expression.c59_constMinus_swapped",
    "MQT.Sym.Expression.c59_termMinus_swapped",
    "MQT.Sym.Expression.c59_mulPi_inconsistent",
    "MQT.Sym.Expression.c59_unsorted"
   ],
   "note": "Sums and differences evaluate to the sum and difference up to the tolerance with which coefficients are dropped (exactly when no coefficients nearly cancel; for phases modulo 2 pi); negation, quotients, adding constants exact; products exact unless the factor is below the tolerance. Not exact always: near-cancelling coefficients and small factors are counterexamples. Number + expression, constant - expression, term - expression, phase * expression and == are wrong, as proved."
  },
  {
   "property": "C60",
   "status": "partial",
   "theorems": [
    "MQT.QASM.c60_int_partial",
    "MQT.QASM.c60_width",
    "MQT.QASM.c60_mixed_width",
    "MQT.QASM.c60_expr_partial",
    "MQT.QASM.c60_crash",
    "MQT.QASM.c60_negative_exponent",
    "MQT.QASM.c60_unsigned_float",
    "MQT.QASM.c60_narrow"
   ],
   "note": "Exact result modulo 2^64, with the undefined and error cases characterised exactly, for 64-bit operands and whole expression trees; single operators also for operands of any two widths. The code crashes on division by zero, shifts, 0 to a power; a negative exponent gives 1; narrow unsigned results are sign extended; all with witnesses."
  },
  {
   "property": "C61",
   "status": "proved",
   "theorems": [
    "MQT.QASM.c61_lexical",
    "MQT.QASM.c61_leave",
    "MQT.QASM.c61_innermost"
   ],
   "note": "For every nested block program."
  },
  {
   "property": "C62",
   "status": "partial",
   "theorems": [
    "MQT.QASM.Parse.c62_partial",
    "MQT.QASM.Parse.c62_arith",
    "MQT.QASM.Parse.c62_full",
    "MQT.QASM.Parse.c62_grammar",
    "MQT.QASM.Parse.c62_unambiguous",
    "MQT.QASM.Parse.Demo.c62_wrong"
   ],
   "note": "Exact characterisation of the trees that read back as themselves, and of the grammar the code reads; the property is false in the code for the others (comparisons bind tighter than sums, power associates to the left, a leading minus takes the whole product). Token lists; identifiers without an index."
  },
  {
   "property": "C63",
   "status": "partial",
   "theorems": [
    "MQT.QASM.c63_reset_partial",
    "MQT.QASM.c63_barrier_partial",
    "MQT.QASM.c63_measure_partial",
    "MQT.QASM.c63_single",
    "MQT.QASM.c63_qasm3",
    "MQT.QASM.c63_gap",
    "MQT.QASM.c63_empty"
   ],
   "note": "Syntax trees of the statements, not the text. False in the code for several targets in OpenQASM 3, for lists that only start and end like a register, and for empty lists (witnesses)."
  },
  {
   "property": "C64",
   "status": "proved",
   "theorems": [
    "MQT.IR.c64_single_qubit_gates",
    "MQT.IR.c64_two_qubit_gates"
   ],
   "note": "Every type and every parameter list, against an independent specification with Pauli matrices, exponentials and basis-state maps."
  },
  {
   "property": "C65",
   "status": "proved",
   "theorems": [
    "MQT.IR.c65_gphase_normalised",
    "MQT.IR.c65_gphase_unique"
   ],
   "note": "Exact reals; loops with fuel, result independent of the fuel once sufficient."
  },
  {
   "property": "C66",
   "status": "partial",
   "theorems": [
    "MQT.DD.c66_vector_partial",
    "MQT.DD.c66_matrix_partial",
    "MQT.DD.c66_phases_survive"
   ],
   "note": "The squared modulus of every entry is |x|^2+|y|^2 (proved for vectors and matrices). The documented value itself is wrong: phases of inner weights survive, witness in c66_phases_survive."
  },
  {
   "property": "C67",
   "status": "partial",
   "theorems": [
    "MQT.DD.c67_expectation_partial",
    "MQT.DD.c67_rejects"
   ],
   "note": "Exact arithmetic. For states on n >= 1 qubits with non-zero root weight; an assertion of the code excludes terminal states."
  },
  {
   "property": "C68",
   "status": "proved",
   "theorems": [
    "MQT.DD.c68_from_matrix",
    "MQT.DD.c68_round_trip",
    "MQT.DD.c68_ragged_undefined"
   ],
   "note": "All square power-of-two matrices; ragged input is undefined behaviour (witness)."
  },
  {
   "property": "C69",
   "status": "partial",
   "theorems": [
    "MQT.Sim.c69_get_dd_partial",
    "MQT.Sim.c69_inverse",
    "MQT.Sim.c69_controlled_phase_ignored",
    "MQT.Sim.c69_default_permutation"
   ],
   "note": "Proved for all standard and nested compound unitary operations except controlled global phases, whose controls getDD ignores (disproved with witness)."
  },
  {
   "property": "C70",
   "status": "proved",
   "theorems": [
    "MQT.Sim.c70_reduce_ancillae",
    "MQT.Sim.c70_initial_matrix",
    "MQT.Sim.c70_idempotent"
   ],
   "note": ""
  },
  {
   "property": "C71",
   "status": "partial",
   "theorems": [
    "MQT.Sim.c71_functionality_partial"
   ],
   "note": "Proved for circuits without controlled global phases (garbage qubits: c99_functionality_partial); the circuit's own global phase is ignored by the code."
  },
  {
   "property": "C72",
   "status": "partial",
   "theorems": [
    "MQT.Alg.c72_success_partial"
   ],
   "note": "Exact real arithmetic in computeNumberOfIterations. The list of operations is considered; above 128 qubits the generator throws (C53)."
  },
  {
   "property": "C73",
   "status": "proved",
   "theorems": [
    "MQT.Alg.c73_nearest",
    "MQT.Alg.c73_inexact"
   ],
   "note": "precision up to 64"
  },
  {
   "property": "C74",
   "status": "partial",
   "theorems": [
    "MQT.ZX.c74_loops_partial",
    "MQT.ZX.c74_interiorClifford",
    "MQT.ZX.c74_empty"
   ],
   "note": "Soundness for every number of iterations of all loops; termination and exhaustion of interiorCliffordSimp. Missing: termination of pivotSimp, pivotgadgetSimp and cliffordSimp. On an empty diagram the loops over edges are undefined behaviour (c74_empty)."
  },
  {
   "property": "C75",
   "status": "partial",
   "theorems": [
    "MQT.ZX.c75_fuseGadget_partial",
    "MQT.ZX.c75_boundary",
    "MQT.ZX.c75_leaves"
   ],
   "note": "The full statement is false: a gadget with a boundary leg (c75_boundary) and a vertex with two leaves (c75_leaves) change the map. Proved when vertices have at most one leaf and single legs are spiders."
  },
  {
   "property": "C76",
   "status": "partial",
   "theorems": [
    "MQT.QASM.Cond.c76_if_partial",
    "MQT.QASM.Cond.c76_constant_first",
    "MQT.QASM.Cond.c76_index_ignored",
    "MQT.QASM.Cond.c76_negated_comparison",
    "MQT.QASM.Cond.c76_negate"
   ],
   "note": "Holds for single bits, their negations and whole registers (at most 64 bits) compared with a constant in second place or for (in)equality; constants in front flip the comparison, an index is ignored, negated comparisons and constants dereference null, a minus is read as a negation."
  },
  {
   "property": "C77",
   "status": "partial",
   "theorems": [
    "MQT.QASM.GateCall.c77_call_partial",
    "MQT.QASM.GateCall.c77_unique",
    "MQT.QASM.GateCall.c77_standard_gates",
    "MQT.QASM.GateCall.c77_negctrl",
    "MQT.QASM.GateCall.c77_scope",
    "MQT.QASM.GateCall.c77_wraps",
    "MQT.QASM.GateCall.c77_operands",
    "MQT.QASM.GateCall.c77_lookup",
    "MQT.QASM.GateCall.c77_prefix_greedy"
   ],
   "note": "Soundness for every call except negctrl on gates with own controls and bodies that use a constant named like a parameter of another gate; both are refuted with witnesses. Undefined behaviour for control counts that wrap."
  },
  {
   "property": "C78",
   "status": "partial",
   "theorems": [
    "MQT.QASM.GateCall.c78_mcx_partial",
    "MQT.QASM.GateCall.c78_mcphase",
    "MQT.QASM.GateCall.c78_names",
    "MQT.QASM.GateCall.c78_vchain_one"
   ],
   "note": "All except mcx_vchain with one control, which is rejected."
  },
  {
   "property": "C79",
   "status": "partial",
   "theorems": [
    "MQT.QASM.Cond.c79_types_partial",
    "MQT.QASM.Cond.c79_declared",
    "MQT.QASM.Cond.c79_whole_register",
    "MQT.QASM.Cond.c79_bit",
    "MQT.QASM.Cond.c79_measure",
    "MQT.QASM.Cond.c79_unknown"
   ],
   "note": "Kinds and the types of names that are neither indexed nor in a binary operator are kept; widths are not (three witnesses), and unknown indexed identifiers dereference null."
  },
  {
   "property": "C80",
   "status": "partial",
   "theorems": [
    "MQT.Opt.c80_fusion_partial",
    "MQT.Opt.c80_meaningful_partial",
    "MQT.Opt.c80_throws",
    "MQT.Opt.c80_fails_for_measurements",
    "MQT.Opt.c80_fails_around_controlled_blocks"
   ],
   "note": "Preservation for circuits without single-qubit measurements, resets and classically controlled gates at top level, and for all circuits whenever the result is meaningful; exact condition for the exception; the code destroys a measurement followed by a gate and cancels gates around classically controlled blocks (witnesses)."
  },
  {
   "property": "C81",
   "status": "partial",
   "theorems": [
    "MQT.Opt.c81_amplitudes_partial",
    "MQT.Opt.c81_probabilities_partial",
    "MQT.Opt.c81_outcomes",
    "MQT.Opt.c81_throws",
    "MQT.Opt.c81_leaves_resets",
    "MQT.Opt.c81_fails_for_nested_blocks",
    "MQT.Opt.c81_fails_for_controlled_blocks"
   ],
   "note": "Amplitudes and probabilities correspond for circuits of gates, measurements, resets, classically controlled gates and compound operations of these; the code does not rewire nested or classically controlled blocks, leaves resets in blocks before the first top-level reset, and throws with ancillary qubits (proved)."
  },
  {
   "property": "C82",
   "status": "partial",
   "theorems": [
    "MQT.Opt.Defer.c82_preserves_partial",
    "MQT.Opt.Defer.c82_one_partial",
    "MQT.Opt.Defer.c82_rejects_resets",
    "MQT.Opt.Defer.c82_rejects_conditional_resets",
    "MQT.Opt.Defer.c82_rejects_registers",
    "MQT.Opt.Defer.c82_skips",
    "MQT.Opt.Defer.c82_fails_for_later_gates",
    "MQT.Opt.Defer.c82_fails_for_comparisons",
    "MQT.Opt.Defer.c82_fails_for_order"
   ],
   "note": "Preservation when no later operation acts on a measured qubit or writes its bit; the code moves measurements past gates on the measured qubit, ignores the kind of comparison, inserts controlled operations at the wrong place when a later operation touches the measured qubit, and skips every second of adjacent measurements (witnesses)."
  },
  {
   "property": "C83",
   "status": "partial",
   "theorems": [
    "MQT.Opt.Final.c83_removes_exactly_partial",
    "MQT.Opt.Final.c83_keeps_gates_partial",
    "MQT.Opt.Final.c83_preserves_partial",
    "MQT.Opt.Final.c83_fails_for_used_bits",
    "MQT.Opt.Final.c83_fails_for_compounds",
    "MQT.Opt.Final.c83_loops"
   ],
   "note": "Exact characterisation and termination for circuits without measuring compound operations; meaning preserved when no remaining operation uses the bits. Counterexamples for used bits and compound operations; non-termination for a compound operation with a part without targets."
  },
  {
   "property": "C84",
   "status": "partial",
   "theorems": [
    "MQT.ZX.BuildProps.c84_build_partial",
    "MQT.ZX.BuildProps.c84_simplified_partial",
    "MQT.ZX.BuildProps.c84_total_partial",
    "MQT.ZX.BuildProps.c84_rejected_partial",
    "MQT.ZX.BuildProps.c84_ecr",
    "MQT.ZX.BuildProps.c84_xxplusyy",
    "MQT.ZX.BuildProps.c84_negative",
    "MQT.ZX.BuildProps.c84_y",
    "MQT.ZX.BuildProps.c84_constant",
    "MQT.ZX.BuildProps.c84_gphase",
    "MQT.ZX.BuildProps.c84_tiny",
    "MQT.ZX.BuildProps.c84_huge"
   ],
   "note": "Linear map of the diagram, simplified diagram, totality and rejection for all circuits with permuted qubits and symbolic parameters; excluded are the gates for which the code is wrong, with counterexamples for ECR, XX+YY, negative controls, global phases, GPhase, tiny and huge parameters."
  },
  {
   "property": "C85",
   "status": "partial",
   "theorems": [
    "MQT.Opt.Backprop.c85_layout_partial",
    "MQT.Opt.Backprop.c85_elide_partial",
    "MQT.Opt.Backprop.c85_meaning_partial",
    "MQT.Opt.Backprop.c85_gaps"
   ],
   "note": "Proved for physical qubits numbered 0 to n-1; with gaps the code takes an element of an empty set (c85_gaps). The statement about meaning also leaves out classically controlled compound operations."
  },
  {
   "property": "C86",
   "status": "partial",
   "theorems": [
    "MQT.DD.c86_make",
    "MQT.DD.c86_kraus",
    "MQT.DD.c86_trace",
    "MQT.DD.c86_channel_partial",
    "MQT.DD.c86_empty",
    "MQT.DD.c86_skipped"
   ],
   "note": "c86_channel_partial excludes operations without qubits (undefined behaviour, c86_empty) and diagrams that skip a non-identity level above a used qubit, where the code is wrong (c86_skipped)."
  },
  {
   "property": "C87",
   "status": "partial",
   "theorems": [
    "MQT.DD.c87_make",
    "MQT.DD.c87_average_partial",
    "MQT.DD.c87_unit_partial",
    "MQT.DD.c87_run",
    "MQT.DD.c87_factor",
    "MQT.DD.c87_jump",
    "MQT.DD.c87_order"
   ],
   "note": "Average and normalisation proved for probabilities in [0,1], at most one amplitude damping with no depolarisation before it, and (multi-qubit with damping) nonzero gate noise; outside these the code loses the state (c87_jump, c87_order) or accepts bad probabilities (c87_factor). Draws are independent uniform reals; the operation cache is not modelled."
  },
  {
   "property": "C88",
   "status": "partial",
   "theorems": [
    "MQT.Layer.c88_execute_partial",
    "MQT.Layer.c88_exec_partial",
    "MQT.Layer.c88_order_partial",
    "MQT.Layer.c88_pairs",
    "MQT.Layer.c88_stuck",
    "MQT.Layer.c88_measure"
   ],
   "note": "Proved for every circuit of standard operations in which no operation is followed on a shared qubit by its inverse: construction succeeds, the executable set is exact (for commutable when no operation repeats on a qubit), no deadlock, every complete order has the meaning of the circuit. False in the code otherwise: x;x;s;sdg can be executed as x;s;x;sdg (c88_pairs), cx(2,0);cx(0,1);cx(1,2);cx(0,1) can deadlock (c88_stuck), a gate followed by a measurement throws (c88_measure). Compound operations are not covered."
  },
  {
   "property": "C89",
   "status": "partial",
   "theorems": [
    "MQT.Sim.c89_dynamic_partial",
    "MQT.Sim.c89_static_partial",
    "MQT.Sim.c89_no_measurements_partial",
    "MQT.Sim.c89_total_partial",
    "MQT.Sim.c89_qubit_twice",
    "MQT.Sim.c89_bit_twice",
    "MQT.Sim.c89_output_twice"
   ],
   "note": "The generating polynomial of the reported counts is proved to be that of independent runs: in full for circuits with mid-circuit measurements, resets or conditioned operations; for measurements at the end if no qubit is measured twice and no bit written twice; without measurements if the output permutation does not exchange qubits. The excluded cases are violated by the code (three counterexamples). Garbage qubits are not modelled."
  },
  {
   "property": "C90",
   "status": "partial",
   "theorems": [
    "MQT.Opt.Blocks.c90_total",
    "MQT.Opt.Blocks.c90_same_operations",
    "MQT.Opt.Blocks.c90_size",
    "MQT.Opt.Blocks.c90_meaning_partial",
    "MQT.Opt.Blocks.c90_one_qubit_partial",
    "MQT.Opt.Blocks.c90_small_circuit_partial",
    "MQT.Opt.Blocks.c90_meaning_fails",
    "MQT.Opt.Blocks.c90_hidden"
   ],
   "note": "Termination, conservation of operations and block sizes are proved for all circuits. The meaning is kept if no qubit is added to a block that stands before an operation on it: always for blocks of one qubit and for circuits that fit into one block. In general it is not: three gates on two qubits at a time are reordered wrongly; classically controlled compound operations are passed over."
  },
  {
   "property": "C91",
   "status": "partial",
   "theorems": [
    "MQT.Opt.Reorder.c91_order_partial",
    "MQT.Opt.Reorder.c91_throws",
    "MQT.Opt.Reorder.c91_meaning_partial",
    "MQT.Opt.Reorder.c91_unitary_partial",
    "MQT.Opt.Reorder.c91_classical_fails",
    "MQT.Opt.Reorder.c91_drops",
    "MQT.Opt.Reorder.c91_hidden_ub"
   ],
   "note": "Proved for circuits without classically controlled compound operations in which operations on different qubits share no classical bit that one of them writes; witnesses show that the others go wrong."
  },
  {
   "property": "C92",
   "status": "partial",
   "theorems": [
    "MQT.Opt.IOMap.c92_outputs_partial",
    "MQT.Opt.IOMap.c92_throws",
    "MQT.Opt.IOMap.c92_injective_partial",
    "MQT.Opt.IOMap.c92_skipped_bit",
    "MQT.Opt.IOMap.c92_shared_bit",
    "MQT.Opt.IOMap.c92_nested"
   ],
   "note": "Proved when, within each measurement, qubits measured before come last, and first measurements write different bits. The code violates the property otherwise: the bit of a skipped qubit is given to the next one, shared bits are taken away again; measurements in compound operations are not seen."
  },
  {
   "property": "C93",
   "status": "partial",
   "theorems": [
    "MQT.Opt.Strip.c93_strip",
    "MQT.Opt.Strip.c93_force_partial",
    "MQT.Opt.Strip.c93_dense",
    "MQT.Opt.Strip.c93_twice",
    "MQT.Opt.Strip.c93_force_collides",
    "MQT.Opt.Strip.c93_force_dangling"
   ],
   "note": "Without force proved in full. With force it is violated when the logical qubit of an idle qubit is put out on another physical qubit: the entry stays and collides with another one or exceeds the number of qubits. Registers are not modelled."
  },
  {
   "property": "C94",
   "status": "proved",
   "theorems": [
    "MQT.Opt.Dynamic.c94_decides",
    "MQT.Opt.Dynamic.c94_measure_last",
    "MQT.Opt.Dynamic.c94_barrier"
   ],
   "note": "isDynamic decides the stated condition at any depth; a circuit that is not dynamic means its gates followed by its measurements. c94_barrier: a barrier on a measured qubit counts as dynamic (this is within the statement: a barrier is a standard operation)."
  },
  {
   "property": "C95",
   "status": "partial",
   "theorems": [
    "MQT.IR.Symb.c95_instantiate_partial",
    "MQT.IR.Symb.c95_in_place",
    "MQT.IR.Symb.c95_invert",
    "MQT.IR.Symb.c95_invert_undoes",
    "MQT.IR.Symb.c95_equals_refl",
    "MQT.IR.Symb.c95_variable_free_partial",
    "MQT.IR.Symb.c95_lost_p",
    "MQT.IR.Symb.c95_lost_u2",
    "MQT.IR.Symb.c95_twice",
    "MQT.IR.Symb.c95_equals_unsound",
    "MQT.IR.Symb.c95_nested"
   ],
   "note": "Instantiation is right except for u gates whose first angle is a number near pi/2 or whose first two angles are numbers near zero (shown to be lost). Inverting commutes with instantiating. Equality is shown to ignore type, qubits and further parameters; symbols within compound operations are shown to stay."
  },
  {
   "property": "C96",
   "status": "partial",
   "theorems": [
    "MQT.QASM.GateCall.c96_qasm3_partial",
    "MQT.QASM.GateCall.c96_qasm2_partial",
    "MQT.QASM.GateCall.c96_peres_exchanged",
    "MQT.QASM.GateCall.c96_peres",
    "MQT.QASM.GateCall.c96_peres_negative",
    "MQT.QASM.GateCall.c96_peres_negative_meaning",
    "MQT.QASM.GateCall.c96_move"
   ],
   "note": "Both exports keep the meaning of every operation that has one, except Peres gates. A Peres gate with positive controls is exported with its targets exchanged; one with a negative control loses the negation in OpenQASM 2; move cannot be read back. Printing and parsing of the text is not part of the model."
  },
  {
   "property": "C97",
   "status": "partial",
   "theorems": [
    "MQT.QASM.Scanner.c97_scan_partial",
    "MQT.QASM.Scanner.c97_unambiguous",
    "MQT.QASM.Scanner.c97_next_partial",
    "MQT.QASM.Scanner.c97_progress",
    "MQT.QASM.Scanner.c97_characters",
    "MQT.QASM.Scanner.c97_hex",
    "MQT.QASM.Scanner.c97_minus",
    "MQT.QASM.Scanner.c97_dt",
    "MQT.QASM.Scanner.c97_dim",
    "MQT.QASM.Scanner.c97_string",
    "MQT.QASM.Scanner.c97_unknown"
   ],
   "note": "All texts of tokens except upper-case hexadecimal digits, the unit dt, a minus directly before a digit meant as an operator, and #dim, for which the negation is proved. Floating-point literals are kept as text."
  },
  {
   "property": "C98",
   "status": "partial",
   "theorems": [
    "MQT.QASM.Scanner.c98_header",
    "MQT.QASM.Scanner.c98_same_partial",
    "MQT.QASM.Scanner.c98_garbage",
    "MQT.QASM.Scanner.c98_none",
    "MQT.QASM.Scanner.c98_comment",
    "MQT.QASM.Scanner.c98_twice",
    "MQT.QASM.Scanner.c98_recognised"
   ],
   "note": "Read back up to renumbering for all maps; the same maps if the logical qubits of both are consecutive. The negation is proved for output permutations with gaps, empty ones, and files with other comments of that form."
  },
  {
   "property": "C99",
   "status": "partial",
   "theorems": [
    "MQT.DD.c99_vector",
    "MQT.DD.c99_vector_magnitudes_partial",
    "MQT.DD.c99_matrix",
    "MQT.DD.c99_matrix_inverse",
    "MQT.DD.c99_matrix_magnitudes_partial",
    "MQT.DD.c99_phases",
    "MQT.DD.c99_identity",
    "MQT.DD.c99_terminal",
    "MQT.Sim.c99_simulate_partial",
    "MQT.Sim.c99_functionality_partial",
    "MQT.Sim.c99_recursive_partial"
   ],
   "note": "Squared magnitudes proved for all diagrams. Without normalizeWeights the entries keep phases (c99_phases); with it terminals are undefined behaviour or keep their weight (c99_terminal, c99_identity). Circuits as in C46, C47, C71."
  }
 ]
}
