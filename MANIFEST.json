{
 "claims": [
  {
   "property": "C01",
   "status": "proved",
   "theorems": [
    "Tulip.mathSet_correct",
    "Tulip.mathSet_remove",
    "Tulip.mathSet_eq",
    "Tulip.mathSet_intersects",
    "Tulip.mathSet_mul",
    "Tulip.mathSet_mixed_counterexample",
    "Tulip.mathSet_mul_counterexample",
    "Tulip.mathSet_iterator_counterexample"
   ],
   "note": "History is an inductive relation over calls; counterexamples show the exclusions are needed."
  },
  {
   "property": "C02",
   "status": "proved",
   "theorems": [
    "Tulip.compareLists_iff"
   ],
   "note": ""
  },
  {
   "property": "C03",
   "status": "proved",
   "theorems": [
    "Tulip.subSet_inside",
    "Tulip.subSet_accepts",
    "Tulip.subSet_new_accepts"
   ],
   "note": "Superset fixed after construction."
  },
  {
   "property": "C04",
   "status": "proved",
   "theorems": [
    "Tulip.powerSet_correct",
    "Tulip.powerset_spec",
    "Tulip.powerset_length"
   ],
   "note": ""
  },
  {
   "property": "C05",
   "status": "proved",
   "theorems": [
    "Tulip.typedDict_consistent",
    "Tulip.setItem_spec",
    "Tulip.setTypes_spec",
    "Tulip.setTypes_counterexample",
    "Tulip.update_midway_counterexample",
    "Tulip.isConsistent_counterexample"
   ],
   "note": ""
  },
  {
   "property": "C06",
   "status": "proved",
   "theorems": [
    "Tulip.LGraph.graph_invariant",
    "Tulip.LGraph.addEdge_spec",
    "Tulip.LGraph.addEdge_default_counterexample",
    "Tulip.LGraph.addEdge_mixed_counterexample",
    "Tulip.LGraph.addNode_reset_counterexample"
   ],
   "note": "Over all histories of calls. The three counterexamples record what the documentation promises and the code does not do."
  },
  {
   "property": "C07",
   "status": "proved",
   "theorems": [
    "Tulip.LGraph.initial_states",
    "Tulip.LGraph.addInitial_spec",
    "Tulip.LGraph.removeNode_initial_counterexample"
   ],
   "note": "Over all histories through the containers; the counterexample is for networkx's remove_node."
  },
  {
   "property": "C08",
   "status": "proved",
   "theorems": [
    "Tulip.LGraph.findEdges_spec",
    "Tulip.LGraph.findStates_spec",
    "Tulip.LGraph.run_keysTyped",
    "Tulip.LGraph.find_sublabel_counterexample"
   ],
   "note": "run_keysTyped shows that the hypotheses hold after every history with the label check on."
  },
  {
   "property": "C09",
   "status": "proved",
   "theorems": [
    "Tulip.LGraph.post_spec",
    "Tulip.LGraph.pre_spec",
    "Tulip.LGraph.post_pre_dual"
   ],
   "note": ""
  },
  {
   "property": "C10",
   "status": "proved",
   "theorems": [
    "Tulip.LGraph.removeDeadends_spec",
    "Tulip.LGraph.deadends_spec",
    "Tulip.LGraph.removeDeadends_hasDeadends"
   ],
   "note": "For every enumeration order of the dead ends; termination of the loop is part of the proof (the bound on rounds is never reached)."
  },
  {
   "property": "C11",
   "status": "proved",
   "theorems": [
    "Tulip.LGraph.removeEdge_spec",
    "Tulip.LGraph.removeState_spec",
    "Tulip.LGraph.removeEdge_all_counterexample"
   ],
   "note": ""
  },
  {
   "property": "C12",
   "status": "proved",
   "theorems": [
    "Tulip.LGraph.addAdj_spec",
    "Tulip.LGraph.addAdj_rejects",
    "Tulip.LGraph.addAdj_dict_counterexample"
   ],
   "note": ""
  },
  {
   "property": "C13",
   "status": "proved",
   "theorems": [
    "Tulip.dijkstra_correct",
    "Tulip.dijkstraMany_correct",
    "Tulip.heapPop_firstLeast"
   ],
   "note": "For every finite graph, costs in any linearly ordered commutative monoid that are not negative, every set of targets and every way heappop breaks ties."
  },
  {
   "property": "C14",
   "status": "proved",
   "theorems": [
    "Tulip.VectorCost.comparison_correct",
    "Tulip.VectorCost.comparison_equal",
    "Tulip.VectorCost.length_mismatch",
    "Tulip.VectorCost.add_correct",
    "Tulip.VectorCost.lt_linear",
    "Tulip.dijkstra_vector",
    "Tulip.VectorCost.validCost_iff"
   ],
   "note": "comparison_equal shows what > and <= do on equal vectors."
  },
  {
   "property": "C15",
   "status": "proved",
   "theorems": [
    "Tulip.Mvp.solve_sound",
    "Tulip.Mvp.solve_optimal",
    "Tulip.Mvp.solve_raises",
    "Tulip.Mvp.wpaEdges_sound",
    "Tulip.Mvp.wpaEdges_complete",
    "Tulip.Mvp.solve_counterexample",
    "Tulip.Mvp.ruleCost_counterexample"
   ],
   "note": "Optimality holds for rules whose automaton has a single state; the counterexamples show what happens with two states and with state names that contain one another."
  },
  {
   "property": "C16",
   "status": "proved",
   "theorems": [
    "Tulip.Mach.reaction_spec",
    "Tulip.Mach.reaction_step",
    "Tulip.Mach.step_reaction"
   ],
   "note": "Order of the edges does not matter. The message of the ValueError is not modelled."
  },
  {
   "property": "C17",
   "status": "proved",
   "theorems": [
    "Tulip.Mach.guidedRun_sound",
    "Tulip.Mach.guidedRun_complete",
    "Tulip.Mach.guidedRun_total",
    "Tulip.Mach.guidedRun_raises"
   ],
   "note": "Sound: what is returned is an execution; complete for deterministic machines; total for deterministic and complete machines."
  },
  {
   "property": "C18",
   "status": "proved",
   "theorems": [
    "Tulip.Mach.moore2mealy_spec"
   ],
   "note": "The output attached is that of the source state, as the docstring of MooreMachine says (y[k] = g(x[k]))."
  },
  {
   "property": "C19",
   "status": "proved",
   "theorems": [
    "Tulip.Mach.mealy2moore_spec"
   ],
   "note": "Choice of Q.pop() is a parameter. Further initial states are ignored by the code. States 's0', 's1', ... are numbers in the model."
  },
  {
   "property": "C20",
   "status": "proved",
   "theorems": [
    "Tulip.Mach.stripPorts_spec",
    "Tulip.Mach.stripPorts_raises",
    "Tulip.Mach.stripPorts_counterexample"
   ],
   "note": "names is a collection of names; with a plain string the code tests substrings."
  },
  {
   "property": "C21",
   "status": "proved",
   "theorems": [
    "Tulip.Mach.move_spec",
    "Tulip.Mach.pythonCase_spec",
    "Tulip.Mach.pythonCase_counterexample",
    "Tulip.Mach.pythonCase_error"
   ],
   "note": "The emitted text is modelled as a program; printing of literals is not. An edge without input values yields a syntax error (counterexample)."
  },
  {
   "property": "C22",
   "status": "proved",
   "theorems": [
    "Tulip.Prod'.tsBaSyncProd_spec",
    "Tulip.Prod'.tsBaSyncProd_language",
    "Tulip.Prod'.tsBaSyncProd_actions_counterexample",
    "Tulip.Prod'.tsBaSyncProd_twice_counterexample"
   ],
   "note": "For every choice of queue.pop(). Counterexamples show that edges with actions raise KeyError and that a pair of automaton states joined both by a label and by {True} raises."
  },
  {
   "property": "C23",
   "status": "proved",
   "theorems": [
    "Tulip.Comp.sync_spec",
    "Tulip.Comp.sync_mass",
    "Tulip.Comp.sync_mass_counterexample",
    "Tulip.Comp.sync_mixed_counterexample",
    "Tulip.Comp.sync_empty"
   ],
   "note": "Default label operations; exact rationals for floats. Counterexamples show the excluded cases."
  },
  {
   "property": "C24",
   "status": "proved",
   "theorems": [
    "Tulip.Comp.applyPolicy_spec",
    "Tulip.Comp.applyPolicy_raises"
   ],
   "note": "Exact rationals for floats."
  },
  {
   "property": "C25",
   "status": "proved",
   "theorems": [
    "Tulip.Simu.simuAbstract_bi",
    "Tulip.Simu.simuAbstract_paths"
   ],
   "note": "Termination for every input; loop order is the code's (first nonzero entry); repr of labels and next(iter(cell)) are parameters."
  },
  {
   "property": "C26",
   "status": "proved",
   "theorems": [
    "Tulip.Simu.simuAbstract_dual",
    "Tulip.Simu.simuAbstract_paths"
   ],
   "note": ""
  },
  {
   "property": "C27",
   "status": "proved",
   "theorems": [
    "Tulip.Synth.mutex_spec",
    "Tulip.Synth.exactlyOne_spec",
    "Tulip.Synth.exactlyOne_empty_counterexample",
    "Tulip.Synth.mutex_repeated_counterexample"
   ],
   "note": "String-level: the returned strings are parsed by the modelled parser. Counterexamples: exactly_one([]) imposes nothing; repeated formulas give strings that do not parse."
  },
  {
   "property": "C28",
   "status": "proved",
   "theorems": [
    "Tulip.Synth.iter2var_ids",
    "Tulip.Synth.iter2var_constraint",
    "Tulip.Synth.iter2var_declares",
    "Tulip.Synth.iter2var_declares_bools",
    "Tulip.Synth.iter2var_faithful",
    "Tulip.Synth.iter2var_complete",
    "Tulip.Synth.iter2var_single_counterexample",
    "Tulip.Synth.iter2var_gap_counterexample",
    "Tulip.Synth.iter2var_returns"
   ],
   "note": "Counterexamples: a single Boolean with 'xor' is not constrained; integer domains with gaps admit values that are no state."
  },
  {
   "property": "C29",
   "status": "proved",
   "theorems": [
    "Tulip.Synth.sysToSpec_sys",
    "Tulip.Synth.sysToSpec_env",
    "Tulip.Synth.sysToSpec_unlabeled_counterexample",
    "Tulip.Synth.sysToSpec_returns",
    "Tulip.Synth.toSpec_raises",
    "Tulip.Synth.sysToSpec_noInitial"
   ],
   "note": "Counterexample: an execution through a transition without environment action is excluded by the environment part when another transition from the same state carries one."
  },
  {
   "property": "C30",
   "status": "proved",
   "theorems": [
    "Tulip.Synth.envToSpec_env",
    "Tulip.Synth.envToSpec_step",
    "Tulip.Synth.envToSpec_sys",
    "Tulip.Synth.envToSpec_blocked_counterexample",
    "Tulip.Synth.envToSpec_returns",
    "Tulip.Synth.toSpec_raises"
   ],
   "note": "Counterexample: when the system takes no action the assumptions leave the next environment state free."
  },
  {
   "property": "C31",
   "status": "proved",
   "theorems": [
    "Tulip.Synth.strategy2mealy_spec",
    "Tulip.Synth.strategy2mealy_exec",
    "Tulip.Synth.strategy2mealy_sound",
    "Tulip.Synth.strategy2mealy_complete",
    "Tulip.Synth.strategy2mealy_noinit_counterexample",
    "Tulip.Synth.strategy2mealy_returns"
   ],
   "note": "Hypotheses: distinct variable names, strategy edges join nodes, string variables are not negative, the initial condition reads declared variables only. The evaluation of compile_init is a parameter."
  },
  {
   "property": "C32",
   "status": "proved",
   "theorems": [
    "Tulip.Synth.determinizeInit_spec",
    "Tulip.Synth.determinizeInit_total"
   ],
   "note": ""
  },
  {
   "property": "C33",
   "status": "proved",
   "theorems": [
    "Tulip.Synth.trimStrategy_spec",
    "Tulip.Synth.maskOutputs_spec",
    "Tulip.Synth.maskOutputs_counterexample"
   ],
   "note": "mask_outputs: the documented behaviour fails, shown by the counterexample."
  },
  {
   "property": "C34",
   "status": "proved",
   "theorems": [
    "Tulip.parse_flatten",
    "Tulip.flatten_injective",
    "Tulip.parse_sound",
    "Tulip.parse_complete",
    "Tulip.infix_precedence",
    "Tulip.prefix_precedence",
    "Tulip.infix_prefix",
    "Tulip.postfix_prime",
    "Tulip.flatten_str_counterexample",
    "Tulip.flatten_spelling_counterexample",
    "Tulip.caret_counterexample",
    "Tulip.reparse"
   ],
   "note": "Excluded forms are shown to fail by the counterexample theorems (string constants lose their quotes; alternative spellings are not printable or do not parse back)."
  },
  {
   "property": "C35",
   "status": "proved",
   "theorems": [
    "Tulip.LtlFile.loads_dumps",
    "Tulip.LtlFile.loads_dumps_exact",
    "Tulip.LtlFile.loads_dumps_text",
    "Tulip.LtlFile.loads_dumps_strings_counterexample",
    "Tulip.LtlFile.loads_dumps_empty_counterexample",
    "Tulip.LtlFile.loads_dumps_comment_counterexample",
    "Tulip.LtlFile.dumps_rejects",
    "Tulip.LtlFile.loads_version",
    "Tulip.LtlFile.loads_errors"
   ],
   "note": "Counterexamples show what is lost outside the stated domain."
  },
  {
   "property": "C36",
   "status": "proved",
   "theorems": [
    "Tulip.union_ok",
    "Tulip.union_meaning",
    "Tulip.union_error_iff",
    "Tulip.declare_ok",
    "Tulip.union_overlap_counterexample",
    "Tulip.union_stale_formula_counterexample",
    "Tulip.declare_returns"
   ],
   "note": "Clauses must parse and contain no comment. union_error_iff characterises rejection; the counterexamples show that env/sys overlap is not rejected and that the formula attribute is stale."
  },
  {
   "property": "C37",
   "status": "proved",
   "theorems": [
    "Tulip.toCanon_meaning",
    "Tulip.toCanon_empty_clause_counterexample",
    "Tulip.compileInit_correct"
   ],
   "note": "to_canon at string level for clauses that parse; compile_init through the Python translation on well-typed clauses."
  },
  {
   "property": "C38",
   "status": "proved",
   "theorems": [
    "Tulip.subConstants_correct",
    "Tulip.encode_in_domain",
    "Tulip.convertDomain_decode",
    "Tulip.subConstants_unknown",
    "Tulip.subConstants_domains_counterexample"
   ],
   "note": "All parts; the counterexample shows the equal-domains condition is needed."
  },
  {
   "property": "C39",
   "status": "proved",
   "theorems": [
    "Tulip.subBool_correct",
    "Tulip.subBool_equivalent",
    "Tulip.subBool_vars",
    "Tulip.replaceDependentClause_correct"
   ],
   "note": "Semantic substitution lemma on all traces; replace_dependent_vars on clauses."
  },
  {
   "property": "C40",
   "status": "proved",
   "theorems": [
    "Tulip.toPy_correct",
    "Tulip.toPy_string_counterexample",
    "Tulip.toPy_mul_counterexample"
   ],
   "note": "Typing HasTy is the 'well-typed' of the statement; counterexamples for the exclusions."
  },
  {
   "property": "C41",
   "status": "proved",
   "theorems": [
    "Tulip.gr1cText_correct",
    "Tulip.gr1cFormula_correct",
    "Tulip.gr1cText_nested_counterexample"
   ],
   "note": "Printing, lexing and parsing of the emitted text included."
  },
  {
   "property": "C42",
   "status": "proved",
   "theorems": [
    "Tulip.splitGr1_meaning",
    "Tulip.splitGr1_accepts",
    "Tulip.splitGr1_rejects",
    "Tulip.strToGrspec_meaning",
    "Tulip.splitGr1_weak_until_counterexample",
    "Tulip.strToGrspec_empty_part_counterexample",
    "Tulip.strToGrspec_accepts",
    "Tulip.strToGrspec_rejects"
   ],
   "note": "All parts of the statement; the exclusions named in the statement (weak until, empty parts) are hypotheses of splitGr1_rejects and strToGrspec_meaning; the counterexamples show that they are necessary."
  },
  {
   "property": "C43",
   "status": "proved",
   "theorems": [
    "Tulip.stability_correct",
    "Tulip.conversions_error",
    "Tulip.aux_blank_counterexample"
   ],
   "note": "Operand is any parsable comment-free formula not mentioning the auxiliary variable; auxiliary name must be a plain identifier. conversions_error: name conflicts raise."
  },
  {
   "property": "C44",
   "status": "proved",
   "theorems": [
    "Tulip.response_correct",
    "Tulip.conversions_error"
   ],
   "note": "As for C43."
  },
  {
   "property": "C45",
   "status": "proved",
   "theorems": [
    "Tulip.eventually_correct",
    "Tulip.conversions_error"
   ],
   "note": "As for C43."
  },
  {
   "property": "C46",
   "status": "proved",
   "theorems": [
    "Tulip.until_correct",
    "Tulip.conversions_error"
   ],
   "note": "As for C43."
  },
  {
   "property": "C47",
   "status": "proved",
   "theorems": [
    "Tulip.Prio.prioritized_rules",
    "Tulip.Prio.addRule_spec",
    "Tulip.Prio.productOf_spec",
    "Tulip.Prio.nested_iteration_counterexample"
   ],
   "note": "The counterexample is for nested loops over one specification, which share the iteration counters."
  },
  {
   "property": "C48",
   "status": "proved",
   "theorems": [
    "Tulip.checkIdents_declared",
    "Tulip.checkIdents_iff",
    "Tulip.checkIdents_constant_counterexample"
   ],
   "note": "checkIdents_constant_counterexample: dead check."
  },
  {
   "property": "C49",
   "status": "proved",
   "theorems": [
    "Tulip.Gw.isReachable_spec",
    "Tulip.Gw.isReachable_error"
   ],
   "note": "the search ends within rows*cols+1 iterations"
  },
  {
   "property": "C50",
   "status": "proved",
   "theorems": [
    "Tulip.Gw.loads_dumps",
    "Tulip.Gw.loads_dumps_sets",
    "Tulip.Gw.loads_dumps_loaded",
    "Tulip.Gw.loads_wf",
    "Tulip.Gw.copy_spec",
    "Tulip.Gw.loads_dumps_counterexample"
   ],
   "note": "marks on occupied cells and goals that are initial cells are lost (counterexample)"
  },
  {
   "property": "C51",
   "status": "proved",
   "theorems": [
    "Tulip.Gw.spec_int",
    "Tulip.Gw.spec_bool"
   ],
   "note": "The texts go through the model of the parser; the meaning is the trace semantics of the parsed formulas."
  },
  {
   "property": "C52",
   "status": "proved",
   "theorems": [
    "Tulip.Gw.subworld_spec",
    "Tulip.Gw.subworld_extend",
    "Tulip.Gw.scale_spec",
    "Tulip.Gw.subworld_counterexample"
   ],
   "note": ""
  },
  {
   "property": "C53",
   "status": "proved",
   "theorems": [
    "Tulip.Gw.extractCoord_cellName",
    "Tulip.Gw.cellName_inj",
    "Tulip.Gw.extractCoord_nowhere",
    "Tulip.Gw.extractCoord_none",
    "Tulip.Gw.getitem_extract"
   ],
   "note": ""
  },
  {
   "property": "C54",
   "status": "proved",
   "theorems": [
    "Tulip.Gw.eqWorld_spec",
    "Tulip.Gw.eqWorld_same",
    "Tulip.Gw.copy_eq",
    "Tulip.Gw.eqWorld_counterexample"
   ],
   "note": "np.all(W != V) should be np.any"
  },
  {
   "property": "C55",
   "status": "proved",
   "theorems": [
    "Tulip.Iface.bitfieldsToInts_encode",
    "Tulip.Iface.bitfieldsToInts_spec",
    "Tulip.Iface.slugsGraph_spec",
    "Tulip.Iface.bitfields_zero_counterexample",
    "Tulip.Iface.bitfields_strs_counterexample"
   ],
   "note": "range (0,0) raises IndexError and string variables raise (counterexamples); a solver that encodes offsets from the lower bound agrees only when the lower bound is 0"
  },
  {
   "property": "C56",
   "status": "proved",
   "theorems": [
    "Tulip.Iface.selectOptions_ok_iff",
    "Tulip.Iface.selectOptions_error_iff",
    "Tulip.Iface.selectOptions_meaning",
    "Tulip.Iface.selectOptions_counterexample"
   ],
   "note": "counterexample: \\A \\A and \\E \\E without initial conditions give the same option and the same input, although they mean different things"
  },
  {
   "property": "C57",
   "status": "proved",
   "theorems": [
    "Tulip.Abs.prop2part_spec",
    "Tulip.Abs.preserving_points",
    "Tulip.Abs.preserves_spec"
   ],
   "note": "The polytope package is a parameter with the contract Abs.Geom.Lawful (set operations exact up to a family of negligible sets); the adjacency matrix is not part of the model of prop2part."
  },
  {
   "property": "C58",
   "status": "proved",
   "theorems": [
    "Tulip.Abs.computeInterval_spec",
    "Tulip.Abs.computeInterval_diverges",
    "Tulip.Abs.productInterval_spec"
   ],
   "note": "Numbers are an Archimedean ordered field: rounding is not modelled. For size <= 0 the loop never ends (proved)."
  },
  {
   "property": "C59",
   "status": "proved",
   "theorems": [
    "Tulip.Abs.mergePartitions_spec",
    "Tulip.Abs.mergedAdj_spec",
    "Tulip.Abs.mergePartitions_rejects",
    "Tulip.Abs.mergePair_ok",
    "Tulip.Abs.mergePair_labels"
   ],
   "note": "The package polytope enters as operations with assumed laws (exact up to negligible sets; a region with Chebyshev radius at least 1e-5 is not negligible; == only on equal sets). Non-vacuous on the example after abstractSwitched_spec."
  },
  {
   "property": "C60",
   "status": "proved",
   "theorems": [
    "Tulip.Abs.discretizeBi_sound",
    "Tulip.Abs.biStep_sound",
    "Tulip.Abs.discretizeBi_complete",
    "Tulip.Abs.discretizeBi_terminates",
    "Tulip.Abs.discTs_spec",
    "Tulip.Abs.discretizeBi_ts",
    "Tulip.Abs.solveFeasible_reach",
    "Tulip.Abs.discretizeBi_noRaise",
    "Tulip.Abs.discretizeBi_returns",
    "Tulip.Abs.reachableWithin_walk"
   ],
   "note": "polytope operations and volumes are parameters with contracts (DiscOps.Sound, Touch, Volume); solve_feasible meets its contract by solveFeasible_reach. Termination assumes exact volumes (polytope estimates them by sampling)."
  },
  {
   "property": "C61",
   "status": "proved",
   "theorems": [
    "Tulip.Abs.solveFixed_sound",
    "Tulip.Abs.attractor_sound",
    "Tulip.Abs.isFeasible_sound",
    "Tulip.Abs.solveFixed_exact",
    "Tulip.Abs.solveBounded_sound",
    "Tulip.Abs.solveBounded_counterexample",
    "Tulip.Abs.volumes_spec",
    "Tulip.Abs.solveOpenLoop_exact",
    "Tulip.Abs.solveFeasible_returns"
   ],
   "note": "polytope and poly_to_poly are parameters with a contract (Solver.Sound, Solver.Exact); solveBounded_counterexample is a disagreement found."
  },
  {
   "property": "C62",
   "status": "proved",
   "theorems": [
    "Tulip.Abs.findDiscreteState_spec",
    "Tulip.Abs.findDiscreteState_partition"
   ],
   "note": "Membership of a point in a region is a parameter."
  },
  {
   "property": "C63",
   "status": "proved",
   "theorems": [
    "Tulip.Hyb.checkTimeData_spec",
    "Tulip.Hyb.checkTimeConsistency_spec",
    "Tulip.Hyb.newPwa_time",
    "Tulip.Hyb.newPwa_homogeneous",
    "Tulip.Hyb.newPwa_keeps",
    "Tulip.Hyb.newSwitched_time",
    "Tulip.Hyb.newSwitched_ok_iff",
    "Tulip.Hyb.newSwitched_homogeneous",
    "Tulip.Hyb.shared_counterexample",
    "Tulip.Hyb.nested_counterexample",
    "Tulip.Hyb.nan_counterexample",
    "Tulip.Hyb.newSwitched_raises"
   ],
   "note": "Objects are identities in a heap, so sharing is covered. Counterexamples: a shared subsystem, nested subsystems not checked, nan accepted as timestep."
  },
  {
   "property": "C64",
   "status": "proved",
   "theorems": [
    "Tulip.Parity.mem_ctrlNext",
    "Tulip.Parity.attractor_spec",
    "Tulip.Parity.attractor_sound",
    "Tulip.Parity.attractor_exact",
    "Tulip.Parity.attractor_counterexample",
    "Tulip.Parity.playerStates_spec",
    "Tulip.Parity.maxColor_spec",
    "Tulip.Parity.maxColor_counterexample",
    "Tulip.Parity.mcNaughton_raises",
    "Tulip.Parity.mcNaughton_splits",
    "Tulip.Parity.mcNaughton_diverges",
    "Tulip.Parity.mcNaughton_counterexample"
   ],
   "note": "Counterexamples: an opponent node with two successors in the target is missed; max_color returns a node instead of a color. Because of that McNaughton may raise, run forever or return the wrong winner."
  },
  {
   "property": "C65",
   "status": "proved",
   "theorems": [
    "Tulip.MathFunc.getItem_spec",
    "Tulip.MathFunc.len_spec"
   ],
   "note": "All histories of add."
  },
  {
   "property": "C66",
   "status": "proved",
   "theorems": [
    "Tulip.checkSyntax_iff",
    "Tulip.collectPrimedVars_correct",
    "Tulip.checkSyntax_sysProg_counterexample"
   ],
   "note": "Exact condition for check_syntax."
  },
  {
   "property": "C67",
   "status": "proved",
   "theorems": [
    "Tulip.inferConstants_correct",
    "Tulip.inferCheck_iff",
    "Tulip.inferConstants_quoted_counterexample",
    "Tulip.inferConstants_root_counterexample",
    "Tulip.subValues_int_counterexample"
   ],
   "note": "subValues_int_counterexample: sub_values raises TypeError on Boolean/integer values."
  },
  {
   "property": "C68",
   "status": "proved",
   "theorems": [
    "Tulip.Abs.pwaPartition_spec",
    "Tulip.Abs.pwaAdj_spec"
   ],
   "note": "Polytope package as a parameter, see C57."
  },
  {
   "property": "C69",
   "status": "proved",
   "theorems": [
    "Tulip.Abs.addGrid_spec",
    "Tulip.Abs.addGrid_dim1_counterexample",
    "Tulip.Abs.sizeList_num"
   ],
   "note": "Polytope package as a parameter, see C57; numbers are an Archimedean ordered field. In one dimension re_list is never assigned."
  },
  {
   "property": "C70",
   "status": "proved",
   "theorems": [
    "Tulip.Abs.discretizeDual_sound",
    "Tulip.Abs.discTs_spec",
    "Tulip.Abs.discretizeDual_diverges_counterexample",
    "Tulip.Abs.discretizeDual_pwa_counterexample",
    "Tulip.Abs.discretizeDual_remove_counterexample"
   ],
   "note": "The three counterexamples are disagreements found."
  },
  {
   "property": "C71",
   "status": "proved",
   "theorems": [
    "Tulip.Abs.ppp2ts_spec",
    "Tulip.Abs.partToTs_spec"
   ],
   "note": ""
  },
  {
   "property": "C72",
   "status": "proved",
   "theorems": [
    "Tulip.Abs.abstractSwitched_spec",
    "Tulip.Abs.getTransitions_spec",
    "Tulip.Abs.getTransitions_ok",
    "Tulip.Abs.mergeAbstractions_spec",
    "Tulip.Abs.discretizeSwitched_numbers_counterexample",
    "Tulip.Abs.reachableWithin_walk"
   ],
   "note": "Default mode names are numbers, declared as numbers but used as strings: counterexample. The parallel variant is C110."
  },
  {
   "property": "C73",
   "status": "proved",
   "theorems": [
    "Tulip.Hyb.checkDomains_sound",
    "Tulip.Hyb.checkDomains_complete",
    "Tulip.Hyb.newPwa_wellDefined"
   ],
   "note": "The polytope operations are lawful parameters."
  },
  {
   "property": "C74",
   "status": "proved",
   "theorems": [
    "Tulip.Abs.isSeqInside_spec"
   ],
   "note": ""
  },
  {
   "property": "C75",
   "status": "proved",
   "theorems": [
    "Tulip.Gw.scaled_reach",
    "Tulip.Gw.scale_reach"
   ],
   "note": ""
  },
  {
   "property": "C76",
   "status": "proved",
   "theorems": [
    "Tulip.Gw.mark_spec",
    "Tulip.Gw.isEmpty_spec",
    "Tulip.Gw.isEmpty_extend",
    "Tulip.Gw.state_spec",
    "Tulip.Gw.state_nonbool",
    "Tulip.Gw.unoccupied_spec",
    "Tulip.Gw.unoccupied_counterexample"
   ],
   "note": ""
  },
  {
   "property": "C77",
   "status": "proved",
   "theorems": [
    "Tulip.Gw.addTrolls_spec",
    "Tulip.Gw.addTrolls_moves",
    "Tulip.Gw.inArea_iff"
   ],
   "note": "Disagreements: addTrolls_moves_counterexample (the moves use grid coordinates, the specification those of the area, so states leave the declared domains); addTrolls_bool_counterexample (Boolean variables: the offset has the wrong sign, declared names and names in the formulas differ)."
  },
  {
   "property": "C78",
   "status": "proved",
   "theorems": [
    "Tulip.Iface.loadAutJson_spec",
    "Tulip.Iface.loadAutJson_version",
    "Tulip.Iface.loadAutJson_good"
   ],
   "note": "decoding of JSON text is not modelled; the decoded value is the input"
  },
  {
   "property": "C79",
   "status": "proved",
   "theorems": [
    "Tulip.Iface.stateVector_spec",
    "Tulip.Iface.moveVector_spec",
    "Tulip.Iface.winningCommand_spec",
    "Tulip.Iface.envNextCommand_spec",
    "Tulip.Iface.sysNextaCommand_spec",
    "Tulip.Iface.sysNextfeasCommand_spec",
    "Tulip.Iface.readMoves_spec",
    "Tulip.Iface.parseVar_spec",
    "Tulip.Iface.stateVector_counterexample"
   ],
   "note": "the pipes and the solver are not modelled; parseVar_spec covers the domains in XML output"
  },
  {
   "property": "C80",
   "status": "proved",
   "theorems": [
    "Tulip.Synth.specPlusSys_meaning",
    "Tulip.Synth.synthesizeSpec_correct",
    "Tulip.Synth.synthesize_correct",
    "Tulip.Synth.synthesize_none",
    "Tulip.Synth.pick_spec",
    "Tulip.Synth.isRealizable_spec",
    "Tulip.Synth.specPlusSys_options",
    "Tulip.Synth.specPlusSys_accepts",
    "Tulip.Synth.synthesizeSpec_returns",
    "Tulip.Synth.synthesize_returns",
    "Tulip.Synth.specPlusSys_returns"
   ],
   "note": "Solvers are parameters, with the contract that returned strategies win on all plays; the example blink meets every hypothesis."
  },
  {
   "property": "C81",
   "status": "proved",
   "theorems": [
    "Tulip.Synth.manySpec_meaning",
    "Tulip.Synth.synthesizeMany_correct",
    "Tulip.Synth.synthesizeMany_default_counterexample",
    "Tulip.Synth.synthesizeMany_none",
    "Tulip.Synth.synthesizeMany_returns",
    "Tulip.Synth.manyStep_accepts",
    "Tulip.Synth.manySpec_returns"
   ],
   "note": "The default ignore_init=None raises TypeError (counterexample theorem). Unlike synthesize, initial conditions of systems are not moved to the assumptions for \\A \\A."
  },
  {
   "property": "C82",
   "status": "proved",
   "theorems": [
    "Tulip.Synth.mapApToStates_spec",
    "Tulip.Synth.buildTable_spec",
    "Tulip.replaceDependentVars_correct",
    "Tulip.dependent_correct",
    "Tulip.replaceDependentVars_succeeds",
    "Tulip.Dependent.string_states_counterexample",
    "Tulip.Dependent.unused_proposition_counterexample",
    "Tulip.Dependent.unknown_label_counterexample"
   ],
   "note": "String states: printing drops the quotes, so the replaced clauses compare with variables (counterexample). A proposition labelling no state gets the empty formula, which does not parse (counterexample)."
  },
  {
   "property": "C83",
   "status": "proved",
   "theorems": [
    "Tulip.Prod'.baTsSyncProd_spec",
    "Tulip.Prod'.baTsSyncProd_language",
    "Tulip.Prod'.addSuccessors_spec",
    "Tulip.Prod'.onTheFly_history",
    "Tulip.Prod'.onTheFly_spec",
    "Tulip.Prod'.baTsSyncProd_substring_counterexample",
    "Tulip.Prod'.onTheFly_branching_counterexample",
    "Tulip.Prod'.onTheFly_blocked_counterexample"
   ],
   "note": "Excluded cases are shown wrong by the counterexample theorems: names that are substrings of each other give wrong letters, add_all_states misses states of a branching system, and raises UnboundLocalError at a blocked state."
  },
  {
   "property": "C84",
   "status": "proved",
   "theorems": [
    "Tulip.Cache.strToInt_history",
    "Tulip.Cache.ast_history"
   ],
   "note": "Counterexamples for the exclusions: Cache.stale_counterexample (values of a string variable reordered), Cache.undeclared_counterexample (variable removed)."
  },
  {
   "property": "C85",
   "status": "proved",
   "theorems": [
    "Tulip.Omega.toAutomaton_correct",
    "Tulip.Omega.encode_onto",
    "Tulip.Omega.toStateAnnotated_correct",
    "Tulip.Omega.toAutomaton_ranges",
    "Tulip.Omega.strVars_spec",
    "Tulip.Omega.intBounds_correct"
   ],
   "note": "The solver (package omega) is outside the model; its input formulas are read with the grammar of tulip."
  },
  {
   "property": "C86",
   "status": "proved",
   "theorems": [
    "Tulip.Trans.translateGr1c_correct",
    "Tulip.Trans.translateSlugs_correct",
    "Tulip.Trans.nested_next_counterexample"
   ],
   "note": "Files are read by independent readers of statements, sections and declarations; formulas by the grammar of tulip.spec. The counterexample shows that nested X is collapsed."
  },
  {
   "property": "C87",
   "status": "proved",
   "theorems": [
    "Tulip.Trans.translateJtlv_correct",
    "Tulip.Trans.translateWring_correct",
    "Tulip.Trans.wring_xor_counterexample",
    "Tulip.Trans.wring_integer_counterexample"
   ],
   "note": "The texts are read by independent readers (comments removed, characters of Wring replaced) and the parser of tulip.spec."
  },
  {
   "property": "C88",
   "status": "proved",
   "theorems": [
    "Tulip.Constr.tuple2fts_spec",
    "Tulip.Constr.lineLabeledWith_spec",
    "Tulip.Constr.cycleLabeledWith_spec",
    "Tulip.Constr.tuple2fts_actions",
    "Tulip.Constr.lineLabeledWith_nil",
    "Tulip.Constr.lineLabeledWith_pair",
    "Tulip.Constr.tuple2fts_noprefix",
    "Tulip.Constr.addInitialStates_nothing",
    "Tulip.Constr.addNode_label"
   ],
   "note": "The specification is the structures Describes, Consistent and IsLine. Disagreements with the documentation: tuple2fts_actions, lineLabeledWith_pair, lineLabeledWith_pair_counterexample, tuple2fts_noprefix, tuple2fts_label_counterexample, lineLabeledWith_string_counterexample, addInitialStates_nothing."
  },
  {
   "property": "C89",
   "status": "proved",
   "theorems": [
    "Tulip.Aut.reach_inv",
    "Tulip.Aut.removeState_accepting",
    "Tulip.Aut.removeState_other",
    "Tulip.Aut.removeDeadends_error"
   ],
   "note": "remove_node called directly is covered for states that are not initial; states.remove for all. Failing removals are characterised exactly."
  },
  {
   "property": "C90",
   "status": "proved",
   "theorems": [
    "Tulip.Aut.rabin_inv",
    "Tulip.Aut.pairAdd_spec",
    "Tulip.Aut.pairRemove_spec",
    "Tulip.Aut.pairRemove_accepts",
    "Tulip.Aut.pairAddStates_spec",
    "Tulip.Aut.pairAddStates_index",
    "Tulip.Aut.rabinRemoveState_spec",
    "Tulip.Aut.pairSets_spec",
    "Tulip.Aut.goodRemove_spec",
    "Tulip.Aut.badRemove_spec"
   ],
   "note": "Acceptance is defined on infinite runs (Accepts). Partial effect of add_states: pairAddStates_midway_counterexample."
  },
  {
   "property": "C91",
   "status": "proved",
   "theorems": [
    "Tulip.Aut.tuple2ba_spec",
    "Tulip.Aut.tuple2baSigma_error"
   ],
   "note": "Specification: ConsistentBa and DescribesBa."
  },
  {
   "property": "C92",
   "status": "proved",
   "theorems": [
    "Tulip.Abs.createLM_spec",
    "Tulip.Abs.createLM3_spec",
    "Tulip.Abs.getMaxExtreme_spec",
    "Tulip.Abs.hull_bound"
   ],
   "note": "Numbers are an arbitrary ordered field: no rounding. pc.is_fulldim and pc.extreme are parameters. Counterexamples for the exclusions: Abs.thin_counterexample, Abs.missed_counterexample."
  },
  {
   "property": "C93",
   "status": "proved",
   "theorems": [
    "Tulip.Abs.polyStates_sound",
    "Tulip.Abs.open_of_traj"
   ],
   "note": "Projection (Polytope.project) is exact by assumption: polyStates is the projection as a set."
  },
  {
   "property": "C94",
   "status": "proved",
   "theorems": [
    "Tulip.Abs.getMaxExtreme_many",
    "Tulip.Abs.createLM_thin_error",
    "Tulip.Abs.thin_counterexample",
    "Tulip.Abs.missed_counterexample"
   ],
   "note": "Errors are universal; the two ignored disturbances are counterexamples to C92 without its exclusions."
  },
  {
   "property": "C95",
   "status": "proved",
   "theorems": [
    "Tulip.Abs.getInput_reaches",
    "Tulip.Abs.getInput_closed",
    "Tulip.Abs.getInput_refuses"
   ],
   "note": "GetInputEx.lean shows a disturbed system for which get_input returns inputs, for both kinds of loop. lp_attains and pre_exists show that solvers and predecessor sets meeting the assumptions exist."
  },
  {
   "property": "C96",
   "status": "proved",
   "theorems": [
    "Tulip.Abs.getInput_complete",
    "Tulip.Abs.getInput_closed_complete",
    "Tulip.Abs.getInput_zero_weight",
    "Tulip.Abs.lp_attains",
    "Tulip.Abs.pre_exists"
   ],
   "note": "getInput_zero_weight: with mid_weight <= 0 and a cost given, a region with polytopes is never reached, because get_input_helper is called only if mid_weight > 0."
  },
  {
   "property": "C97",
   "status": "proved",
   "theorems": [
    "Tulip.Abs.getInput_optimal",
    "Tulip.Abs.getInput_best",
    "Tulip.Abs.getInput_arrays",
    "Tulip.Abs.getInput_states_counterexample",
    "Tulip.Abs.getInput_center_counterexample",
    "Tulip.Abs.getInput_order_counterexample"
   ],
   "note": "The documented cost |Rx|+|Qu|+r'x+mid_weight*|xc-x(N)| is not what is minimised; the counterexamples give inputs of lower documented cost."
  },
  {
   "property": "C98",
   "status": "proved",
   "theorems": [
    "Tulip.Hyb.newLti_ok_iff",
    "Tulip.Hyb.newLti_shaped",
    "Tulip.Hyb.newLti_without_A",
    "Tulip.Hyb.pwaFromLti_needs_all",
    "Tulip.Hyb.pwaFromLti_ok",
    "Tulip.Hyb.switchedFromPwa_ok",
    "Tulip.Hyb.switchedFromLti_ok_iff"
   ],
   "note": "from_lti replaces missing arrays by lists, which have no attribute ndim, so the optional arguments are required."
  },
  {
   "property": "C99",
   "status": "proved",
   "theorems": [
    "Tulip.Storm.toPrismFile_describes",
    "Tulip.Storm.toPrismFile_exact",
    "Tulip.Storm.round4_near",
    "Tulip.Storm.toPrismFile_ok",
    "Tulip.Storm.toPrismFile_error",
    "Tulip.Storm.toPrismFile_sum_counterexample",
    "Tulip.Storm.toPrismFile_unused_counterexample"
   ],
   "note": "The specification is the reader of PRISM in Verif/Interfaces/Prism.lean and the structures Exportable and Describes. The rounded probabilities need not have the sum 1, and an atomic proposition that no state has gives a label that cannot be read."
  },
  {
   "property": "C100",
   "status": "proved",
   "theorems": [
    "Tulip.Storm.toTulipTransys_spec"
   ],
   "note": "The specification is WellFormed and Imports. The parser of the external tool is not modelled."
  },
  {
   "property": "C101",
   "status": "proved",
   "theorems": [
    "Tulip.Storm.toTulipState_spec",
    "Tulip.Storm.extractProbability_spec",
    "Tulip.Storm.modelChecking_prob",
    "Tulip.Storm.modelChecking_labels_counterexample",
    "Tulip.Storm.modelChecking_unreachable_counterexample"
   ],
   "note": "The external tool is a parameter with a contract (Contract), which exTool_contract shows can be met. The documentation promises an entry for every state; unreachable ones have none."
  },
  {
   "property": "C102",
   "status": "proved",
   "theorems": [
    "Tulip.Storm.getActionMap_spec",
    "Tulip.Storm.extractPolicy_spec",
    "Tulip.Storm.extractPolicy_exact",
    "Tulip.Storm.extractPolicy_none",
    "Tulip.Storm.extractPolicy_wrong_counterexample",
    "Tulip.Storm.extractPolicy_rounding_counterexample",
    "Tulip.Storm.extractPolicy_chain_counterexample"
   ],
   "note": "Only transitions between the same states are compared: the policy may have an action that does not lead where the scheduler goes (extractPolicy_wrong_counterexample), and probabilities changed by rounding are not recognized (extractPolicy_rounding_counterexample). A Markov chain has no attribute actions (extractPolicy_chain_counterexample)."
  },
  {
   "property": "C103",
   "status": "proved",
   "theorems": [
    "Tulip.Iface.loadAutXml_spec",
    "Tulip.Iface.loadAutXml_spec_only",
    "Tulip.Iface.loadAutXml_reject",
    "Tulip.Iface.loadAutXml_good",
    "Tulip.Iface.loadMealy_spec",
    "Tulip.Iface.loadAutXml_type",
    "Tulip.Iface.unescape_entities",
    "Tulip.Iface.loadAutXml_incomplete",
    "Tulip.Iface.loadXmlNode_reject",
    "Tulip.Iface.tag_default"
   ],
   "note": "The XML parser of Python is not modelled: documents are element trees. Excluded cases have counterexamples: without text before the first node the function raises AttributeError (loadAutXml_text_counterexample), with a namespace other than the default the variables are lost (loadAutXml_namespace_counterexample), an unknown format raises UnboundLocalError, and a file with only a specification AttributeError (loadMealy_counterexample)."
  },
  {
   "property": "C104",
   "status": "proved",
   "theorems": [
    "Tulip.Iface.gr1cSynthesize_correct",
    "Tulip.Iface.gr1pySynthesize_correct",
    "Tulip.Iface.omegaSynthesize_correct",
    "Tulip.Iface.slugsSynthesize_correct",
    "Tulip.Iface.gr1cCheck_agrees",
    "Tulip.Iface.gr1pyCheck_agrees",
    "Tulip.Iface.omegaCheck_agrees",
    "Tulip.Iface.slugsCheck_agrees",
    "Tulip.Iface.missing_solver",
    "Tulip.Iface.synthesize_delivers",
    "Tulip.Iface.gr1cSynthesize_returns",
    "Tulip.Iface.slugsSynthesize_returns",
    "Tulip.Iface.omegaCheck_returns"
   ],
   "note": "The solvers are parameters with contracts about what they read; the examples at the end of the file build sound solvers for a small specification."
  },
  {
   "property": "C105",
   "status": "proved",
   "theorems": [
    "Tulip.Iface.gr1cCheck_exact",
    "Tulip.Iface.gr1pyCheck_exact",
    "Tulip.Iface.slugsCheck_exact",
    "Tulip.Iface.omegaCheck_exact",
    "Tulip.Iface.isRealizable_exact",
    "Tulip.Iface.realizable_meaning",
    "Tulip.Iface.lamp_realizable",
    "Tulip.Iface.wish_not_realizable",
    "Tulip.Iface.slugs_qinit_counterexample",
    "Tulip.Iface.gr1cCheck_returns",
    "Tulip.Iface.omegaCheck_returns",
    "Tulip.Iface.slugsCheck_returns",
    "Tulip.Iface.isRealizable_returns"
   ],
   "note": "The solvers are parameters that decide the game they are given. The interface to slugs does not look at qinit: slugs_qinit_counterexample."
  },
  {
   "property": "C106",
   "status": "proved",
   "theorems": [
    "Tulip.Ba.claim_read",
    "Tulip.Ba.claim_language",
    "Tulip.Ba.parse_truncated",
    "Tulip.Ba.accept_init_counterexample",
    "Tulip.Ba.skip_counterexample"
   ],
   "note": "The counterexamples show the exclusions: a state that is both initial and accepting loses its acceptance, and skip is a syntax error that is only logged. The function ltl2ba, which calls the tool and this parser, is not modelled: it uses an undefined name."
  },
  {
   "property": "C107",
   "status": "proved",
   "theorems": [
    "Tulip.Gw.randomWorld_spec",
    "Tulip.Gw.randomWorld_total",
    "Tulip.Gw.randomWorld_diverges_counterexample",
    "Tulip.Gw.narrowPassage_spec",
    "Tulip.Gw.narrowPassage_connected",
    "Tulip.Gw.narrowPassage_ptop_counterexample",
    "Tulip.Gw.narrowPassage_width_counterexample"
   ],
   "note": "The generators of random numbers are parameters with the contract that their results are in range. Floating-point arithmetic is modelled as exact rational arithmetic. The length of the passage is not negative. The counterexamples show the cases in parentheses."
  },
  {
   "property": "C108",
   "status": "proved",
   "theorems": [
    "Tulip.Mach.randomRun_sound",
    "Tulip.Mach.randomRun_total",
    "Tulip.Mach.randomRun_complete",
    "Tulip.Mach.randomRun_guided",
    "Tulip.Mach.interactiveRun_counterexample"
   ],
   "note": "The text that is printed is modelled by its parts: the states, the inputs and the outputs of each move. The counterexample is about interactive_run."
  },
  {
   "property": "C109",
   "status": "proved",
   "theorems": [
    "Tulip.Pml.fts2promela_runs",
    "Tulip.Pml.fts2promela_initial_counterexample",
    "Tulip.Pml.fts2promela_action_counterexample",
    "Tulip.Pml.fts2promela_name_counterexample"
   ],
   "note": "The specification is a reader for the part of Promela that the files use (tokens, grammar) and the meaning of a process. Counterexamples: the initial label is lost, transitions with actions are dropped, the default name is empty."
  },
  {
   "property": "C110",
   "status": "proved",
   "theorems": [
    "Tulip.Abs.parSwitched_spec",
    "Tulip.Abs.parSwitched_seq",
    "Tulip.Abs.seqSwitched_spec",
    "Tulip.Abs.SwitchedAbs.unique",
    "Tulip.Abs.parSwitched_lost",
    "Tulip.Abs.parSwitched_unknown",
    "Tulip.Abs.parSwitched_unknown_counterexample",
    "Tulip.Abs.parSwitched_numbering_counterexample",
    "Tulip.Abs.Pool.progress",
    "Tulip.Abs.Pool.never",
    "Tulip.Abs.Pool.orders",
    "Tulip.Abs.seqSwitched_missing"
   ],
   "note": "The schedule is a list of events (a worker ends, the parent reads). parSwitched_lost, parSwitched_unknown and parSwitched_unknown_counterexample show when the call waits forever; Pool.orders that every order of arrival is possible."
  },
  {
   "property": "C111",
   "status": "proved",
   "theorems": [
    "Tulip.Gw.dumpPartition_spec",
    "Tulip.Gw.dumpPartition_empty",
    "Tulip.Gw.cellProp_counterexample"
   ],
   "note": "The points are pairs of rational numbers; the polytope package is a parameter with a contract (Geom.Lawful and Plane). The adjacency matrix is not modelled. cellProp_counterexample: with nonbool=False the names ignore the offset of the world."
  },
  {
   "property": "C112",
   "status": "proved",
   "theorems": [
    "Tulip.Gw.pretty_spec",
    "Tulip.Gw.pretty_error",
    "Tulip.Gw.pretty_inj",
    "Tulip.Gw.pretty_order_counterexample",
    "Tulip.Gw.pretty_empty"
   ],
   "note": "pretty_inj is for pictures without grid, path and goal order. pretty_order_counterexample: with eleven goals and goal_order the rows have different lengths."
  },
  {
   "property": "C113",
   "status": "proved",
   "theorems": [
    "Tulip.Abs.closedLoop_correct",
    "Tulip.Abs.ClosedLoop.region",
    "Tulip.Abs.tour_loop",
    "Tulip.Abs.tour_machine",
    "Tulip.Abs.tour_reads",
    "Tulip.Abs.closedLoop_discretize"
   ],
   "note": "closedLoop_correct composes C37 (synthesize), the soundness of discretize and get_input; the example in ClosedLoopEx.lean (a number line with two places, disturbances and horizon 2) meets every hypothesis, for every initial state and all disturbances. The polytope operations, linear programs and the solver are parameters with contracts."
  },
  {
   "property": "C114",
   "status": "proved",
   "theorems": [
    "Tulip.Abs.simulate2d_raises",
    "Tulip.Abs.simPeriod_iff",
    "Tulip.Abs.simLoop_spec",
    "Tulip.Abs.swap_simulated",
    "Tulip.Abs.simulate_offset_counterexample"
   ],
   "note": "simLoop_spec and simPeriod_iff are about the loop of simulate2d. simulate2d itself raises for all arguments (simulate2d_raises). simulate_offset_counterexample: with a constant term the simulated point misses the region."
  },
  {
   "property": "C115",
   "status": "proved",
   "theorems": [
    "Tulip.Abs.discretize_spec",
    "Tulip.Abs.discretize_dual_spec",
    "Tulip.Abs.discretize_returns",
    "Tulip.Abs.part2convex_spec",
    "Tulip.Abs.verifyTransitions_sound",
    "Tulip.Abs.verifyTransitions_returns",
    "Tulip.Abs.discretize_conservative",
    "Tulip.Abs.verifyTransitions_conservative_counterexample",
    "Tulip.Abs.closedLoop_discretize",
    "Tulip.Abs.prepare_returns"
   ],
   "note": "Counterexample: for a conservative abstraction the maps have one element, so ppp2orig, ppp2pwa, ppp2trans and verify_transitions raise IndexError. The functions of polytope and solve_feasible are parameters with contracts."
  },
  {
   "property": "C116",
   "status": "proved",
   "theorems": [
    "Tulip.Lily.strategy2moore_empty",
    "Tulip.Lily.partitionText_words",
    "Tulip.Lily.synthesize_nonboolean",
    "Tulip.Lily.synthesize_spec",
    "Tulip.Lily.synthesize_none",
    "Tulip.Lily.parseLabel_assigns",
    "Tulip.Lily.lily_realizable_counterexample",
    "Tulip.Lily.lily_edge_counterexample",
    "Tulip.Lily.lily_stale_counterexample",
    "Tulip.Lily.parseLabel_spec",
    "Tulip.Lily.FindAll.unique",
    "Tulip.Lily.synthesize_no_variables",
    "Tulip.Lily.synthesize_no_formula",
    "Tulip.Lily.synthesize_no_file",
    "Tulip.Lily.strategy2moore_returns"
   ],
   "note": "The effect of Lily on the files is a parameter. Counterexamples: a realizable specification gives a machine without states; reading an edge would fail; a stale file of a strategy is read if Lily fails."
  },
  {
   "property": "C117",
   "status": "proved",
   "theorems": [
    "Tulip.Full.replaceNames_eq",
    "Tulip.Full.replaceNames_plain",
    "Tulip.Full.text_spelled",
    "Tulip.Full.parseWith_spelled",
    "Tulip.Full.parseWith_plain",
    "Tulip.Full.full_names_variable_counterexample"
   ],
   "note": "Composed with the theorems on the lexer and parser: the text in any spelling parses to the tree. Counterexample: door.next becomes door.X and the constant \"not\" is not read. Texts are fully parenthesized, as the package prints formulas."
  },
  {
   "property": "C118",
   "status": "proved",
   "theorems": [
    "Tulip.Ltype.initLabeling_spec",
    "Tulip.Ltype.addLabelTypes_spec",
    "Tulip.Ltype.create_spec",
    "Tulip.Ltype.labels_allowed",
    "Tulip.Ltype.add_state",
    "Tulip.Ltype.bad_default",
    "Tulip.Ltype.allow_spec",
    "Tulip.Ltype.allow_hist",
    "Tulip.Ltype.isConsistent_spec",
    "Tulip.Ltype.label_stale_counterexample",
    "Tulip.Ltype.redeclared_default_counterexample",
    "Tulip.Ltype.deterministic_counterexample",
    "Tulip.Ltype.initLabeling_missing",
    "Tulip.Ltype.create_missing",
    "Tulip.Ltype.forbid_spec"
   ],
   "note": "codomains are references into a heap of predicates, so sharing is explicit; the counterexamples show that a label may stop being allowed after a change of its codomain and is_consistent cannot tell, that a redeclaration keeps the old default, and that deterministic has no effect"
  },
  {
   "property": "C119",
   "status": "proved",
   "theorems": [
    "Tulip.Dot.graph2dot_spec",
    "Tulip.Dot.names_distinct",
    "Tulip.Dot.graph2dot_ok",
    "Tulip.Dot.accepting_hidden",
    "Tulip.Dot.no_format_no_edges",
    "Tulip.Dot.tikz_raises",
    "Tulip.Dot.splitext_spec",
    "Tulip.Dot.target_spec",
    "Tulip.Dot.target_default",
    "Tulip.Dot.save_picture",
    "Tulip.Dot.save_ok",
    "Tulip.Dot.save_promela_raises",
    "Tulip.Dot.save_scxml_raises",
    "Tulip.Dot.accepting_shape_counterexample",
    "Tulip.Dot.phantom_clash_counterexample",
    "Tulip.Dot.gradient_counterexample",
    "Tulip.Dot.save_path_counterexample",
    "Tulip.Dot.tikz_exception",
    "Tulip.Dot.gradient_spec",
    "Tulip.Dot.gradient_raises",
    "Tulip.Dot.nodeAttr_raises"
   ],
   "note": "str, textwrap.fill and the mixture of colors are parameters; the result is the list of statements given to the package graphviz; counterexamples: accepting states look like others, a state with the name of a phantom node merges with it, gradients need top and bottom colors, save('fig.pdf') puts DOT text in fig.pdf"
  },
  {
   "property": "C120",
   "status": "proved",
   "theorems": [
    "Tulip.Scxml.mealy2scxml_raises",
    "Tulip.Scxml.intended_ok_iff",
    "Tulip.Scxml.intended_tags",
    "Tulip.Scxml.intended_xml_iff",
    "Tulip.Scxml.scxml_counterexample"
   ],
   "note": "the negation of what a user expects is proved; the repaired variant is modelled as well, with a separate specification that reads tags from the text"
  },
  {
   "property": "C121",
   "status": "proved",
   "theorems": [
    "Tulip.mathSet_pop",
    "Tulip.mathSet_pops",
    "Tulip.subSet_pop",
    "Tulip.mathSet_update",
    "Tulip.containsMultiple_spec",
    "Tulip.cprod_add",
    "Tulip.cprod_contains",
    "Tulip.cprod_contains_counterexample",
    "Tulip.cprod_remove",
    "Tulip.cprod_removeFrom",
    "Tulip.powerSet_arith",
    "Tulip.powerSet_objects",
    "Tulip.powerSet_setMathSet_counterexample",
    "Tulip.subSet_pop_returns"
   ],
   "note": "The choices of random.randint and of set.pop are universally quantified. Membership in a CartesianProduct and the documented assignment of a list to math_set are wrong in the code: see the counterexamples."
  },
  {
   "property": "C122",
   "status": "proved",
   "theorems": [
    "Tulip.Iface.session_correct",
    "Tulip.Iface.reset_counterexample",
    "Tulip.Iface.demoSolver_speaks"
   ],
   "note": "The solver is any process that follows the protocol (Speaks); demoSolver_speaks shows that one exists for every answer table. reset_counterexample: after a failed reset, reset() returns True without a solver."
  },
  {
   "property": "C123",
   "status": "proved",
   "theorems": [
    "Tulip.MathFunc.save_spec",
    "Tulip.MathFunc.save_succeeds",
    "Tulip.MathFunc.save_transys_counterexample",
    "Tulip.MathFunc.init_spec",
    "Tulip.MathFunc.init_substring_counterexample",
    "Tulip.MathFunc.init_one"
   ],
   "note": "Keys are distinct and none is 'labels'. The file is modelled as the list of objects; the text that json writes is not."
  },
  {
   "property": "C124",
   "status": "proved",
   "theorems": [
    "Tulip.Abs.discretize_lti",
    "Tulip.Abs.discretize_paths",
    "Tulip.Abs.follow_path",
    "Tulip.Abs.solveFeasible_driven"
   ],
   "note": "Composes C92 (createLM), C93 (poly_to_poly), C61 (solve_feasible) and C115 (discretize). The package polytope is a parameter with contracts (Solver.Linear, DiscEnv.SetsOk, Geom.Lawful); numbers are an ordered field. The example in DiscReachEx.lean meets every hypothesis, with a system with disturbances and horizon 2, for closed_loop and not."
  },
  {
   "property": "C125",
   "status": "proved",
   "theorems": [
    "Tulip.GrFile.grspec_file",
    "Tulip.GrFile.load_name",
    "Tulip.GrFile.subValues_spec",
    "Tulip.GrFile.grspec_file_strings_counterexample"
   ],
   "note": "String-valued variables: grspec_file_strings_counterexample. LTL.load with the name of a file opens it with mode 'rU', which Python 3.11 and later reject (load_name)."
  },
  {
   "property": "C126",
   "status": "proved",
   "theorems": [
    "Tulip.TreeG.roundTrip",
    "Tulip.TreeG.subBoolTree_spec",
    "Tulip.TreeG.quoteTree_spec",
    "Tulip.TreeG.subValuesTree_spec",
    "Tulip.TreeG.subConstantsTree_spec",
    "Tulip.TreeG.exists_isTree",
    "Tulip.TreeG.shared_counterexample"
   ],
   "note": "Refinement: the graph algorithms equal the recursive functions that C38, C39, C48, C67 and C125 are about. shared_counterexample: with a shared leaf object add_subtree raises an AssertionError."
  },
  {
   "property": "C127",
   "status": "proved",
   "theorems": [
    "Tulip.Plot.plotTs_spec",
    "Tulip.Plot.plotTs_missing",
    "Tulip.Plot.plotTs_no_matrix",
    "Tulip.Plot.projectStrategy_spec",
    "Tulip.Plot.projectStrategy_returns",
    "Tulip.Plot.projectStrategy_empty"
   ],
   "note": "What polytope draws for an arrow, and the size of the arrow, are not modelled. That the projection of a synthesized machine is empty is not what its docstring says (DESIGN.md, disagreements)."
  },
  {
   "property": "C128",
   "status": "proved",
   "theorems": [
    "Tulip.Graphics.dom2vec_spec",
    "Tulip.Graphics.gridPoint_box",
    "Tulip.Graphics.gridPoint_ends",
    "Tulip.Graphics.dom2vec_raises",
    "Tulip.Graphics.dom2vec_empty",
    "Tulip.Graphics.grouper_spec",
    "Tulip.Graphics.newax_spec",
    "Tulip.Graphics.newax_dims"
   ],
   "note": "Numbers are rationals instead of floating-point numbers; numpy and matplotlib are modelled by linspace, meshgrid and the check of the place in add_subplot."
  },
  {
   "property": "C129",
   "status": "proved",
   "theorems": [
    "Tulip.Gr1cV.getVersion_spec",
    "Tulip.Gr1cV.getVersion_printed",
    "Tulip.Gr1cV.getVersion_raises",
    "Tulip.Gr1cV.checkGr1c_spec",
    "Tulip.Gr1cV.checkGr1c_raises",
    "Tulip.Gr1cV.checkSyntax_spec"
   ],
   "note": "The executable is a parameter; the comparison of versions by the package packaging is a parameter with the contract that versions of three numbers are compared lexicographically (a function that meets the contract is given). int() accepts ASCII digits only in the model."
  },
  {
   "property": "C130",
   "status": "proved",
   "theorems": [
    "Tulip.Pretty.pretty_lines",
    "Tulip.Pretty.pretty_injective"
   ],
   "note": "The text of a domain, str(v), is a parameter."
  },
  {
   "property": "C131",
   "status": "proved",
   "theorems": [
    "Tulip.Plot.plotModePartitions_saves",
    "Tulip.Plot.plotModePartitions_unmerged",
    "Tulip.Plot.plotSwitched_missing"
   ],
   "note": "How polytope draws a partition is not modelled; a picture is what is asked to be drawn. That an AbstractSwitched without a merged partition makes plot_mode_partitions fail is a disagreement with its use for unmerged abstractions."
  },
  {
   "property": "C132",
   "status": "proved",
   "theorems": [
    "Tulip.Gw.Draw.plot_draws",
    "Tulip.Gw.Draw.plot_outside",
    "Tulip.Gw.Draw.plot_empty"
   ],
   "note": "Coordinates are rational numbers; the limits of the axes after imshow are those of matplotlib (imshowBox). Marks drawn before an exception are not kept."
  },
  {
   "property": "C133",
   "status": "proved",
   "theorems": [
    "Tulip.Gw.Anim.animate_shows",
    "Tulip.Gw.Anim.animate_writes",
    "Tulip.Gw.Anim.animate_short",
    "Tulip.Gw.Anim.animate_many",
    "Tulip.Gw.Anim.frameName_sorted"
   ],
   "note": "Frames of an animation are computed when it is shown; the model computes them at once. Files written before an exception are not kept."
  },
  {
   "property": "C134",
   "status": "proved",
   "theorems": [
    "Tulip.Lbt.readlbt_reads",
    "Tulip.Lbt.readlbt_dumpdot",
    "Tulip.Lbt.lbt_gateWord",
    "Tulip.Lbt.readlbt_parallel_counterexample",
    "Tulip.Lbt.readlbt_dead_counterexample"
   ],
   "note": "The reader and the writer of contrib/readlbt.py."
  },
  {
   "property": "C135",
   "status": "proved",
   "theorems": [
    "Tulip.Spin.spinToDstar_prefix",
    "Tulip.Spin.spinToDstar_injective",
    "Tulip.Spin.calls_fail",
    "Tulip.Spin.spinToDstar_ambiguous_counterexample",
    "Tulip.Spin.spinToDstar_precedence_counterexample",
    "Tulip.Spin.spin_chars"
   ],
   "note": "contrib/spin2dstar.py; the combinators of pyparsing are modelled as used there."
  },
  {
   "property": "C136",
   "status": "proved",
   "theorems": [
    "Tulip.Fmu.mealyexport_simulates",
    "Tulip.Fmu.fsm_undefined",
    "Tulip.Fmu.mealyexport_twice",
    "Tulip.Fmu.fsm_undefined_counterexample"
   ],
   "note": "The two generated files are modelled by the values of the variables they define; that the C compiler reads back the numbers that are printed is trusted, and C integers do not overflow in the model."
  },
  {
   "property": "C137",
   "status": "proved",
   "theorems": [
    "Tulip.Matlab.exportMealy_spec",
    "Tulip.Matlab.exportMealy_unreached",
    "Tulip.Matlab.exportMealy_loc_counterexample"
   ],
   "note": "The saving of the dictionary with scipy and the Matlab scripts that read it are not modelled."
  },
  {
   "property": "C138",
   "status": "proved",
   "theorems": [
    "Tulip.Fmu.control_schedule",
    "Tulip.Fmu.control_follows",
    "Tulip.Fmu.doStep_tick",
    "Tulip.Fmu.doStep_discard",
    "Tulip.Fmu.master_ticks",
    "Tulip.Fmu.doStep_last",
    "Tulip.Fmu.doStep_second"
   ],
   "note": "The optimization that computes the continuous input is a parameter; times are rational numbers without rounding."
  },
  {
   "property": "C139",
   "status": "proved",
   "theorems": [
    "Tulip.Fmu.ecos_iff",
    "Tulip.Fmu.pack_ecos",
    "Tulip.Fmu.mpc_optimal",
    "Tulip.Fmu.cartesianProd_mem",
    "Tulip.Fmu.exportPoly_mem",
    "Tulip.Fmu.fromBox_mem",
    "Tulip.Fmu.compute_control_traj",
    "Tulip.Fmu.closed_loop",
    "Tulip.Fmu.isInside_counterexample",
    "Tulip.Fmu.fromBox_center",
    "Tulip.Fmu.cartesianProd_center"
   ],
   "note": "Arithmetic is exact; the solver is not modelled, its contract (minimize c z over A z = b and h - G z in the cone) is the specification Ecos. isInside is wrong (counterexample); nothing in the repository calls it."
  },
  {
   "property": "C140",
   "status": "proved",
   "theorems": [
    "Tulip.Fmu.hybrid_controller",
    "Tulip.Fmu.hybrid_strategy",
    "Tulip.Fmu.problem_iff",
    "Tulip.Fmu.schedule_at",
    "Tulip.Fmu.canMove_iff_driven",
    "Tulip.Fmu.leave_counterexample"
   ],
   "note": "Composition of C136, C138 and C139. Exact arithmetic and no disturbance, as in C139; that the system can make the moves is a hypothesis, which the abstraction is to establish."
  },
  {
   "property": "C141",
   "status": "proved",
   "theorems": [
    "Tulip.Fmu.slave_history",
    "Tulip.Fmu.xmlVars_refs",
    "Tulip.Fmu.xmlVars_names_counterexample"
   ],
   "note": "slave_history gives the whole state after any calls, with the ticks of C138; xmlVars_refs relates the references in the description to those in slave_history. Numbers are rational, each call sets one variable (the C functions take arrays and loop over them)."
  },
  {
   "property": "C142",
   "status": "proved",
   "theorems": [
    "Tulip.Dstar.readdstar_correct",
    "Tulip.Dstar.formula_step",
    "Tulip.Dstar.readdstar_language"
   ],
   "note": "The file as it is cannot be imported, because of the brackets in __str__ (line 111), and it uses A.edge of networkx 1. The theorems are about readdstar as written."
  },
  {
   "property": "C143",
   "status": "proved",
   "theorems": [
    "Tulip.Fmu.cosimulation",
    "Tulip.Fmu.cosim_readings",
    "Tulip.Fmu.cosim_steps"
   ],
   "note": "With exact arithmetic and without disturbances; the solver is any function with the contract in the statement. An example meets all hypotheses for all times."
  },
  {
   "property": "C144",
   "status": "proved",
   "theorems": [
    "Tulip.XmlIo.import_export",
    "Tulip.XmlIo.importXML_exportXML",
    "Tulip.XmlIo.import_bool_set_counterexample",
    "Tulip.XmlIo.import_props_counterexample",
    "Tulip.XmlIo.import_again"
   ],
   "note": "About trees of elements: the texts of numbers and arrays and the writing and parsing of XML are assumed to be read back (Codec.Good). The constructors of polytope are taken to keep their arguments. Time semantics and time steps of systems are not exported and not in the model."
  }
 ]
}