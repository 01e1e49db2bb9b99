# Formal model of tulip-control in Lean 4: design

## Method

The code in `/repo` is read as text and re-expressed, function by function, as
small total Lean functions over `List`, `Nat`, `Int`, `Option`, `Except` and plain
structures. Every definition cites the file and lines it models and states each
simplification.

* exceptions are values (`Except`/`Option`);
* a method that mutates `self` returns the new value;
* `for` loops are folds; `while` loops are structural or well-founded recursions,
  or recursions on fuel with a theorem that the fuel given suffices;
* iteration orders that Python leaves open (sets, heap ties, random choice) are
  parameters, so the theorems hold for every order;
* external libraries (networkx, numpy, polytope, PLY, solvers) are parameters or
  are replaced by a minimal model of the operations used; these are listed under
  "Trusted base".

Each area has a model file and a property file (`…Props.lean`) that states the
theorems against a small specification that does not use the model's helpers.
Beside each theorem there is an `example` showing that concrete, non-trivial data
meets its hypotheses.
When the code violates the English property, the negation is proved on a concrete
witness (`…_counterexample`), the property is worded with the exclusion, and what does hold
is proved under exactly that exclusion.

## Plan per property

| id | what is modelled | how it is proved |
|----|------------------|------------------|
| C01 | `MathSet` with its two stores | refinement to an abstract set, induction over operations |
| C02 | `compare_lists` | equivalence with `List.Perm` by induction |
| C03 | `SubSet` | invariant over operation histories |
| C04 | `PowerSet`, `powerset` | membership/nodup/length by induction on the base list |
| C05 | `TypedDict` | invariant over histories |
| C06 | multigraph with `add_node`, `add_edge`, removals | invariant over histories |
| C07 | `States` + `initial` | invariant over histories |
| C08 | `Transitions.find`, `label_is_desired` | membership characterisation |
| C09 | `States.post/pre` | membership characterisation |
| C10 | `remove_deadends` | greatest fixpoint and infinite-run characterisation |
| C11 | `Transitions.remove` | decision logic plus counterexample to the docstring |
| C12 | `add_adj` | fold invariant |
| C13 | Dijkstra with lazy-deletion heap | loop invariant, any tie-breaking |
| C14 | `VectorCost` | order laws, counterexample for `>` |
| C15 | weighted product of `mvp.py` | what holds under the exclusions of the statement, counterexamples for the rest |
| C16, C17 | `reaction`, `guided_run` | decision logic, induction on inputs |
| C18, C19 | `moore2mealy`, `mealy2moore` | run correspondence by induction |
| C20 | `strip_ports` | run correspondence |
| C21 | program emitted by `python_case` | interpreter of the emitted program refines `reaction` |
| C22 | `ts_ba_sync_prod` | worklist invariant, infinite runs |
| C23, C24 | compositions | membership, sums of probabilities |
| C25, C26 | `simu_abstract` | loop invariant, termination measure |
| C27, C28 | formula builders of `synth.py` | semantics of the formulas |
| C29, C30 | `sys_to_spec`, `env_to_spec` | trace equivalence |
| C31–C33 | strategy post-processing | graph characterisations |
| C34 | lexer/parser/flatten | round trip by induction on ASTs |
| C35 | `dumps`/`loads` | round trip on strings |
| C36, C37 | `GRSpec` operations | LTL semantics on infinite traces |
| C38–C41 | AST transformations | structural induction against semantics |
| C42–C46 | GR(1) fragment | LTL semantics on infinite traces |
| C47 | prioritized specifications | invariant over histories |
| C48 | identifier check | structural induction |
| C49–C54 | `GridWorld` | DFS invariant, round trips, trace equivalence |
| C55, C56 | solver interfaces | arithmetic round trip, decision logic |
| C57–C62 | abstraction of continuous systems over abstract sets | loop invariants |
| C63 | time data of hybrid systems | structural induction |
| C64 | parity attractor step and loop, `McNaughton` with a bound on the steps | what holds under the exclusions of the statement, counterexamples for the rest |
| C65 | functions on labelled states | refinement to partial maps |
| C66 | `GRSpec.check_syntax` | decision logic against "mentions a primed variable" |
| C67 | `infer_constants` | through the parser model; counterexamples for conflicts |
| C68, C69 | `pwa_partition`, `add_grid`, `compute_interval` over abstract sets | loop invariants up to negligible sets; termination of the intervals |
| C70 | `_discretize_dual` | loop invariant; counterexamples to termination |
| C71, C72 | `ppp2ts`, `discretize_switched`, `merge_partitions`, `get_transitions` | loop invariants, exact characterisation of edges |
| C73 | constructor of `PwaSysDyn` | decision logic |
| C74 | `is_seq_inside` | induction on the horizon |
| C75, C76 | grid scaling, occupancy, `state` | path correspondence, membership |
| C77 | `add_trolls` | semantics of the emitted formulas on infinite traces |
| C78, C79 | gr1c JSON and interactive sessions | round trips; protocol as a state machine with the solver as a parameter |
| C80, C81 | `synthesize`, `synthesize_many` | composition of C29–C31 with a winning-strategy contract on the solver |
| C82 | `build_dependent_var_table`, `replace_dependent_vars` | semantics of the table and substitution |
| C83 | `ba_ts_sync_prod`, `OnTheFlyProductAutomaton` | worklist invariants, reachable products, counterexamples |
| C84 | caches of `GRSpec` | invariant over arbitrary histories of edits and queries |
| C85 | `omega._grspec_to_automaton` and the strategy graph | LTL semantics; bit/integer domains |
| C86, C87 | `translate` to gr1c, slugs, JTLV, Wring | independent readers of the four formats, semantics on infinite traces |
| C88 | `tuple2fts`, `line_labeled_with`, `cycle_labeled_with`, `add_initial_states` | structures `Describes`, `IsLine`; induction over the lists of arguments |
| C89, C90 | accepting states and Rabin pairs under arbitrary histories | invariants by induction over histories; acceptance of infinite runs |
| C91 | `tuple2ba` | structure `DescribesBa`; induction over the transitions |
| C92, C93, C94 | `createLM`, `get_max_extreme`, `_block_diag2`, `poly_to_poly` over arrays with shapes and entries in an ordered field | trajectories, polytopes, convex hulls as sums; loop invariants for each array; the maximum over the digits of an index |
| C95, C96, C97 | `get_input`, `get_input_helper` over arrays; solvers of linear and quadratic programs as parameters with a contract | the constraints by `createLM_spec`; the linear programs for the norms represent the cost; Fourier-Motzkin elimination shows that the contracts can be met |
| C98 | `LtiSysDyn.__init__` with its checks, `from_lti`, `from_pwa` | predicate `Describes` on the arguments; case analysis of each check |
| C99, C100, C101, C102 | `stormpy.py`: text of the PRISM file, import, labels to states, actions from probabilities; the tool is a parameter with a contract | a reader of PRISM as specification, by lemmas on lexing concatenations; folds by invariants; the reader applied to the text gives the contract its program |
| C103 | `load_aut_xml`, `_untaglist`, `_untagdict`, `load_mealy` over element trees; the XML parser is not modelled | specification writes a strategy as a document; the loop over nodes by an invariant |
| C104 | `synthesize` and `check_realizable` of the interfaces to gr1c, gr1py, slugs and omega; the solvers are parameters with contracts about the text or game that they read | the translation theorems (C85, C86) relate the text to the specification, the readers (C55, C78, C85) the answer to a strategy; encoding of strings as indices along plays |
| C105 | games over valuations and traces as a specification of realizability; the checks of the interfaces; the solvers decide the game they are given | an isomorphism of games (strings and indices) preserves winning states and the four quantifications of initial values; the translation theorems give the isomorphism |
| C106 | the lexer and the LALR(1) parser of `ltl2ba.py` with delayed reductions and recovery from errors; a grammar of boolean expressions of Python as a specification | induction over guards (precedence), jumps and statements; the text of a guard is read back by the grammar of Python; acceptance of infinite words |
| C107 | `random_world` and `narrow_passage`, with the random numbers as parameters, and with a bound on the number of iterations of the loop that adds walls | invariants of the loops (cells chosen, number of walls, feasibility); connectedness by rows and columns |
| C108 | `random_run` with its choices as a parameter and with what it prints, `interactive_run` | induction over the number of moves; guided runs by the completeness theorem of C17 |
| C109 | `fts2promela` over the labelled graph model: the text of the file, with the calls of `find` as they are written (`as_dict=True` is a desired label); the time stamp and the printed dictionary are parameters | Specification: tokens, grammar and jumps of a Promela process. The text is cut into tokens part by part, read by induction on the lists of transitions and states, and the jumps of each part are characterized; runs then agree step by step |
| C110 | `multiproc_discretize_switched` with its workers: a pool of running workers, the queue and the parent, driven by a schedule (a list of events); `discretize_switched` with the parameters of the modes | an invariant of the pool (each mode is running, in the queue, read, or lost) by induction on the schedule, a decreasing measure, and uniqueness of common refinements up to the numbering and negligible sets, hence isomorphic transition systems |
| C111 | `dump_ppartition`: the right-hand sides of the domain and of the cells, the names of the cells and the call of `prop2part` (C57); the polytope package is a parameter | Specification: the rectangle of a cell. The loop fills the dictionary of cells by induction; names are injective; rectangles cover the domain and overlap on lines only, so the classes of propositions are the cells |
| C112 | `pretty` with all its options, as a text | Specification: marks of cells and the lines of the picture. Induction over the columns, rows and places on the path; pictures are cut at line ends and by lengths for injectivity |
| C113 | nothing new: `discretize`, the transition system of the abstraction, `synthesize`, runs of the machine and `get_input` are joined | Specification: `ClosedLoop` (what a run is) and `Realizes` (what the variables say about the continuous states). From `synthesize_correct`, the soundness of `discretize` and `getInput_reaches`, by induction over the periods |
| C114 | the loop of `simulate2d` and the way its initialization fails | Specification: `Interval`. Simulated states are the trajectory without disturbances by induction; `getInput_reaches` and the specification of `find_discrete_state` |
| C115 | `discretize` from its arguments to the returned `AbstractPwa`: the dispatch, `part2convex`, the lists that map regions, the final checks; the methods of `AbstractPwa` and `verify_transitions` | Specification: `Mapped`. The maps of the three refinements compose; the loops are covered by the invariants of C60 and C70 |
| C116 | `lily.synthesize`, `_lily_strategy2moore` and `_parse_label` over a file system (a dictionary of texts); Lily is a parameter that maps formula and files to files | Specification: `Means`, `wordsOfLines`. From the theorems on translation to Wring (C87); the loops over nodes and edges are empty for every text because only title lines are kept |
| C117 | `_replace_full_name_operators` as thirteen substitutions with word boundaries, and `parse` with the option | Specification: `mapWords spell` (one pass over the words) and `Spelling`. Each substitution is a map over words; their composition is one map; induction over the formula, and the theorem that printed formulas are read back |
| C118 | the declarations of label types at creation and by `add_label_types`, with codomains as references into a heap of predicates (shared codomains, setters), additions of states and transitions, changes of codomains, `is_consistent` | induction over the list of definitions (last one decides), invariant over histories of additions and changes of codomains |
| C119 | `graph2dot.py` from the labeled graph to the statements given to `graphviz` (labels, colors, phantom nodes, ranks), the tikz variant up to its exception, `save` with its paths | induction over states and transitions with the two dictionaries of the intermediate graph as lists, freshness of names |
| C120 | `machine2scxml.py`, as text, with the call of the set of initial states as it is (an exception) and repaired | induction over states and transitions through a reader of tags |
| C121 | the rest of `mathset.py`: `pop` with its random choices, `update`, in-place union, `contains_multiple`, `CartesianProduct`, `PowerSet` sums, comparison and assignment of the base set | popping is removal of the element returned (no repetitions in the stores); induction over the calls; counting of factors with the same elements |
| C122 | `GR1CSession` as an object: the running solver, the output not read yet, all methods as state transformers that return, raise or wait for ever | refinement to a reference session (file that runs, file to reset to); invariant: exactly the prompt is unread between calls; induction over the calls |
| C123 | the constructor of `FunctionOnLabeledState` with single keys, `to_json` and `save` | the pairs represent the list of inputs in order of first use with their last call; induction over the history |
| C124 | `discretize` with `solve_feasible` and the polytope of `createLM` in place of an abstract solver | composition of C92, C93, C61 and C115; a policy along a path by choice and induction over time |
| C125 | `Spec/GRSpecFile.lean`: `GRSpec.dumps`, `__str__`, `LTL.load`, `GRSpec.sub_values` on top of the models of C35, C37 and C84 | the canonical formula contains no separator (induction over the clauses), then C35 and C37; substitution by induction on trees |
| C126 | the class Tree as a multigraph of numbered objects with a memory: add_node, add_edge, remove_node, from_recursive_ast, to_recursive_ast, add_subtree, the loops of sub_values, sub_constants, sub_bool_with_subtree, infer_constants, pair_node_to_var, relabeling in place | the relation "these objects are these formulas" gives the nodes and edges of the graph by induction; an invariant of the loop over nodes for add_subtree; renaming of nodes for relabeling; induction over the context of a node for the pairing of constants |
| C127 | `plot_ts_on_partition`, `project_strategy_on_partition` with their dictionaries, look-ups and indices | loop inductions over the matching transitions (C08), with a separate specification of the arrow of a transition and of the location of a state; invariant that the states of machines made by `strategy2mealy` have no labels |
| C128 | `_grouper`, `dom2vec`, `newax` over rational numbers, with `linspace` and `meshgrid` | inductions over chunks and axes; the specification of a grid point is separate (evenly spaced points in each interval) |
| C129 | `get_version`, `check_gr1c`, `_assert_gr1c`, `check_syntax`; the executable and the comparison of `packaging` are parameters | the words and the dotted parts of a text are characterised by concatenations (induction over the text); then case analysis |
| C130 | `GRSpec.pretty` (Spec/Pretty) | induction on lists of conjuncts; lines of a text are determined by it |
| C131 | `AbstractSwitched.plot`, `_plot_abstraction`, `plot_mode_partitions` (Abstract/PlotModes) | pictures as requests to polytope, files as a dictionary; induction on the list of modes |
| C132 | `GridWorld.plot` as a list of requests to matplotlib (Gridworld/Plot) | arithmetic of clipped intervals; induction over rows, columns and trolls |
| C133 | `animate_paths` (Gridworld/Animate), random numbers as a parameter | induction over paths and frames; numerals of the same length are ordered as numbers |
| C134 | `readlbt`, `_split2` and `dumpdot` of `contrib/readlbt.py` on texts as lists of characters; a `DiGraph` is a dictionary of nodes and a dictionary of edges | induction on the words of the text: the parts between `-1` have the words of the states and of the transitions, whatever the layout; then induction on the states for what the automaton contains |
| C135 | `contrib/spin2dstar.py` on texts as lists of characters: the parser as mutually recursive functions with a bound on the depth that is never reached for formulas, and the module-level stack passed from call to call | mutual induction on the grammar of formulas for what the parser pushes; induction on the prefix notation for injectivity; induction on the depth that a parser never removes what earlier calls left |
| C136 | `mealyexport` with `input2num`, the generated `value2index` and tables, `init_fsm` and `fsm_transition` of `FSM.c` (C integers without overflow, reads outside arrays undefined) | mixed radix codes are below their number and injective; invariant of the two nested loops over the entries of the tables; induction on paths |
| C137 | `export_mealy` and `export_mealy_io` of `tomatlab.py`: the dictionary of locations, the count that is asserted, the records of states, transitions and initial transitions | induction on the edges; the asserted count is compared with the states entered by counting lists without repetition |
| C138 | `Verif/Transys/FmuCtl.lean`: the C functions `init_controller`, `transition_function`, `input_function`, `compute_control` (optimization as a parameter), and the clock of `fmiDoStep`, `fmiGetMaxStepSize` over the rationals | induction on the ticks from the end, with the tables of C136; an invariant relating the count to the ticks of any history of calls; induction on pairs of calls for the maximal steps |
| C139 | `Verif/Transys/FmuMpc.lean`: the arrays that `get_input_helper` fills (columns of sparse matrices, with the copies of blocks and the last entries at computed places), and the polytopes of `polytope.c` and `poly2str.py`; exact arithmetic | the arrays are the encodings of lists of columns (lengths against the numbers `nnzG`, `nnzA`), row by row evaluation of the products, equivalence with trajectories, comparison of objectives; induction along the closed loop with the rest of the trajectory as a solution |
| C140 | the controller exported from a deterministic machine (C136), with the schedule of C138, whose optimization is that of C139, in closed loop with the linear system; the solver is any function that returns a feasible point when there is one | induction on the moves: the schedule gives the problem solved at each tick, `closed_loop` gives each move; an example with two regions that satisfies all hypotheses forever |
| C141 | `Verif/Transys/FmuSlave.lean`: the variables of `modelDescription.xml`, and the unit with its arrays and the calls `fmiSetReal`, `fmiSetInteger`, `fmiGetReal`, `fmiDoStep`, `fmiInitializeSlave`; one variable for each call | induction on the history of calls from its end; the specification is the value set last for a reference, and the list of readings at ticks |
| C142 | `Verif/Interfaces/Dstar.lean`: `readdstar` line by line on the words of the lines, with its variables and exceptions, `gen_apformula`, `gen_apsubset`; without `__str__` | invariant before each subset of each state, for the edges as a function of both ends; induction on subsets, signatures and states; lines without effect are filtered |
| C143 | the unit of C141, whose controller is that of C140, with a master that sets the state at each tick and applies the inputs | what the unit reads at the ticks of the calls of the master (induction on periods, with the clock), then C141 and C140; the example of C140 extended to the unit |
| C144 | `Verif/Interfaces/XmlIo.lean`: `_export_xml`, `_make_pretty` and `_import_xml` with all functions that they call, on trees of elements; data as mutually inductive types; texts of numbers and arrays by functions that are parameters; a bound on the depth of the import | mutual induction on data for the round trip; induction on the depth for the indentation, which changes no text that is read |

## Trusted base

* Lean 4.33.0's kernel. Every theorem depends on at most the three standard axioms `propext`,
  `Classical.choice` and `Quot.sound`; none of our own is added, and no `sorry`, `native_decide` or
  `bv_decide` is used. Concrete witnesses are checked with `rfl`, `decide` or `decide +kernel`.
* The reading of the Python source into the model. Nothing was run: the correspondence is by the
  citation of file and lines at each definition.
* Python itself: dictionaries are association lists that keep insertion order, sets are lists without
  repetitions whose order the theorems do not use (or quantify over), integers are unbounded, strings
  are lists of characters, exceptions are values of `PyErr` (messages are not modelled), `assert` raises
  (the interpreter is not run with `-O`). Floating-point numbers are replaced by exact numbers where
  they occur (costs, probabilities, coordinates).

### Assumptions about external libraries

They enter as parameters of the theorems or as a small model of the operations that are used.

* networkx (`Transys/Graph`, `Transys/ShortestPath`): a multigraph is a list of nodes with attribute
  dictionaries and a list of edges with integer keys; `add_node`, `add_edge`, `remove_node`,
  `remove_edge`, `successors`, `out_edges` act as documented.
* polytope (`Abstract/Geometry`, structure `Geom.Lawful`): intersection, difference and
  full-dimensionality are exact up to a family of negligible sets closed under subsets and unions.
  Volumes, the tests `<=` and adjacency are further parameters; where a theorem needs them to be
  right this is a hypothesis.
* numpy (`Abstract/Mat`): arrays of two dimensions with entries in an ordered field; shape errors are
  modelled where the modelled code can cause them.
* scipy, cvxopt (`Abstract/FindController`, `Abstract/Feasible`): the projection of a polytope, the
  solution of a linear or quadratic program and random points are parameters.
* PLY (`Spec/Parser`): the lexer is longest-alternative-first in the order in which PLY tries the
  rules; the LALR automaton with the precedence table is replaced by a precedence-climbing parser,
  and `Spec/ParserProps` proves that it accepts exactly derivations of the cited productions.
* The solvers gr1c, slugs, omega, gr1py, lily, JTLV (`Synth/Synthesize`, `Interfaces`): a solver
  is a function that returns nothing or a strategy graph; the contract "the returned graph is a
  winning strategy for the formula it was given" is a hypothesis of the theorems that conclude that
  the controller is correct. Subprocesses, files and logging are not modelled.
* `random`, `set.pop`, heap ties: universally quantified choices.


## Which functions are modelled

Generated from the citations in the model: for each file, the functions whose lines are cited by a
definition of the model, and those that are not modelled.

* `tulip/_utils.py`: not modelled (2 functions).
* `tulip/abstract/discretization.py`: 27 of 34 functions modelled. Not modelled: `AbstractSwitched.__str__`, `AbstractPwa._ppp2other_str`, `AbstractPwa._debug_str_`, `AbstractPwa.plot`, `discretize_overlap`, `plot_annot`, `multiproc_merge_partitions`.
* `tulip/abstract/feasible.py`: 11 of 12 functions modelled. Not modelled: `_print_horizon_warning`.
* `tulip/abstract/find_controller.py`: 4 of 5 functions modelled. Not modelled: `assert_cvxopt`.
* `tulip/abstract/plot.py`: 7 of 11 functions modelled. Not modelled: `plot_abstraction_scc`, `plot_strategy`, `plot_trajectory`, `_assert`.
* `tulip/abstract/prop2partition.py`: 10 of 14 functions modelled. Not modelled: `PropPreservingPartition.reg2props`, `PropPreservingPartition.__str__`, `PropPreservingPartition.plot`, `PropPreservingPartition.plot_props`.
* `tulip/dumpsmach.py`: 1 of 2 functions modelled. Not modelled: `write_python_case`.
* `tulip/graphics.py`: 4 of 8 functions modelled. Not modelled: `dimension`, `quiver`, `_assert_graphviz`, `_assert_pyplot`.
* `tulip/gridworld.py`: 23 of 28 functions modelled. Not modelled: `GridWorld.__ne__`, `GridWorld.__str__`, `GridWorld.__copy__`, `GridWorld.mark_occupied`, `GridWorld.load`.
* `tulip/hybrid.py`: 19 of 27 functions modelled. Not modelled: `_indent`, `LtiSysDyn.__str__`, `LtiSysDyn.plot`, `PwaSysDyn.__str__`, `PwaSysDyn.plot`, `SwitchedSysDyn.__str__`, `SwitchedSysDyn.modes`, `SwitchedSysDyn.env_labels`.
* `tulip/interfaces/_inspect.py`: not modelled (3 functions).
* `tulip/interfaces/gr1c.py`: all 24 functions modelled.
* `tulip/interfaces/gr1py.py`: all 3 functions modelled.
* `tulip/interfaces/lily.py`: all 3 functions modelled.
* `tulip/interfaces/ltl2ba.py`: 15 of 29 functions modelled. Not modelled: `Parser.build`, `Parser.p_claim`, `Parser.p_clauses`, `Parser.p_clauses_end`, `Parser.p_if_clause`, `Parser.p_cases`, `Parser.p_cases_end`, `Parser.p_case`, `Parser.p_number`, `Parser.p_goto`, `Parser.p_empty`, `ltl2ba`, `call_ltl2ba`, `_main`.
* `tulip/interfaces/omega.py`: 6 of 7 functions modelled. Not modelled: `is_circular`.
* `tulip/interfaces/slugs.py`: all 4 functions modelled.
* `tulip/interfaces/stormpy.py`: 10 of 12 functions modelled. Not modelled: `build_stormpy_model`, `print_stormpy_model`.
* `tulip/mvp.py`: all 5 functions modelled.
* `tulip/spec/ast.py`: 23 of 24 functions modelled. Not modelled: `_comma`.
* `tulip/spec/form.py`: 24 of 30 functions modelled. Not modelled: `LTL.__repr__`, `LTL.__str__`, `LTL.check_form`, `GRSpec.__repr__`, `GRSpec.loads`, `GRSpec.load`.
* `tulip/spec/gr1_fragment.py`: 8 of 10 functions modelled. Not modelled: `check`, `_main`.
* `tulip/spec/lexyacc.py`: 26 of 30 functions modelled. Not modelled: `Lexer.build`, `Parser.build`, `parse`, `_main`.
* `tulip/spec/parser.py`: 2 of 3 functions modelled. Not modelled: `_make_parser`.
* `tulip/spec/prioritized_safety.py`: 16 of 17 functions modelled. Not modelled: `PrioritizedSpecification.next`.
* `tulip/spec/transformation.py`: 17 of 21 functions modelled. Not modelled: `Tree._to_dot`, `Tree.write`, `ast_to_labeled_graph`, `_flatten`.
* `tulip/spec/translation.py`: 18 of 20 functions modelled. Not modelled: `make_promela_nodes`, `_ast_to_lang`.
* `tulip/synth.py`: 35 of 36 functions modelled. Not modelled: `_fts2spec`.
* `tulip/transys/algorithms.py`: not modelled (7 functions).
* `tulip/transys/automata.py`: 19 of 23 functions modelled. Not modelled: `WeightedFiniteStateAutomaton.__init__`, `FiniteWordAutomaton.__init__`, `RabinAutomaton.__init__`, `DRA.__init__`.
* `tulip/transys/compositions.py`: all 9 functions modelled.
* `tulip/transys/cost.py`: 7 of 12 functions modelled. Not modelled: `VectorCost.__init__`, `VectorCost.__str__`, `VectorCost.__getitem__`, `VectorCost.__iter__`, `VectorCost.__len__`.
* `tulip/transys/export/graph2dot.py`: 12 of 14 functions modelled. Not modelled: `graph2dot_str`, `plot_dot`.
* `tulip/transys/export/graph2promela.py`: all 1 functions modelled.
* `tulip/transys/export/machine2scxml.py`: all 1 functions modelled.
* `tulip/transys/export/save_d3.py`: not modelled (2 functions).
* `tulip/transys/graph_algorithms.py`: all 2 functions modelled.
* `tulip/transys/labeled_graphs.py`: 42 of 51 functions modelled. Not modelled: `test_common_bug`, `Transitions.__init__`, `Transitions.__call__`, `Transitions.__str__`, `Transitions.__len__`, `Transitions._breaks_determinism`, `Transitions.add_from`, `LabeledDiGraph.dot_str`, `LabeledDiGraph.plot`.
* `tulip/transys/machines.py`: 19 of 29 functions modelled. Not modelled: `is_valuation`, `MooreMachine.__init__`, `MooreMachine.__str__`, `MealyMachine.__init__`, `MealyMachine.__str__`, `MealyMachine.reactionpart`, `MealyMachine.run`, `_print_ports`, `_print_label`, `_split_io`.
* `tulip/transys/mathfunc.py`: 12 of 14 functions modelled. Not modelled: `FunctionOnLabeledState.__str__`, `FunctionOnLabeledState.get_state_input_output_pair`.
* `tulip/transys/mathset.py`: 47 of 55 functions modelled. Not modelled: `MathSet.__repr__`, `MathSet._debug_repr`, `MathSet._filter_hashables`, `MathSet._filter_unhashables`, `PowerSet.__get__`, `PowerSet.__repr__`, `TypedDict.__init__`, `TypedDict.__str__`.
* `tulip/transys/products.py`: all 8 functions modelled.
* `tulip/transys/transys.py`: 20 of 23 functions modelled. Not modelled: `FiniteTransitionSystem.__str__`, `_dumps_states`, `LabeledGameGraph.__init__`.

In total 544 of 675 functions are cited.

## Where the code and the English property disagree

Each line was found while proving; where a theorem ending in `_counterexample` exists it is listed in
`MANIFEST.json` with the property. The properties are worded so that they claim only what holds.

### Specifications
* Changing the values of a string variable, or removing a variable, leaves stale entries in the caches
  of `GRSpec` (C84). `sys_prog` is not checked by `check_syntax` (C66).
* `LTL.loads` raises `IndexError` or `AssertionError` for incomplete ranges and sets, elements of
  string sets keep a leading space, the empty set becomes `{''}`, `#` and `%%` inside formulas break
  the round trip (C35).
* The union of two specifications can declare a variable on both sides, and keeps `formula` of the
  left operand (C36). String constants lose their quotes when flattened (C34).
* Nested `X` collapses to one prime in gr1c and slugs inputs (C41, C86). slugs: string variables, list
  domains and negative values fail; the solver's bit order is assumed plain binary (C55, C86). Wring:
  xor raises `KeyError`, a variable that is not Boolean raises `AttributeError` (C87).
* `gr1c` receives the same option for `\A \A` and for `\E \E` without initial conditions (C56).
* `PrioritizedSpecification`: nested iteration shares one counter; a float priority raises
  `TypeError` (C47). `make_smv_nodes` lacks Boolean operators, so the translation always fails.

### Synthesis front end
* `exactly_one([])` is vacuous; repeated names give formulas that do not parse (C27). `iter2var`
  leaves a single Boolean variable unconstrained and admits integers that are no state when the
  numbers have gaps (C28). An action named `''` gives `X()` (C29).
* `env_to_spec`: edges without an environment action are skipped; the disjunct for a blocked state
  leaves the next state free (C30).
* `strategy2mealy`'s check for initial successors cannot fail; `mask_outputs` raises `RuntimeError`
  at the first masked output (C31, C33).
* `synthesize_many` with its default `ignore_init=None` raises `TypeError` (C81). Options are copied
  from the environment after the initial conditions have been moved, but from the system before.
* `build_dependent_var_table` gives `''` for a proposition that labels no state (C82).

### Transition systems, automata, machines
* An unlabeled edge may be added after labeled ones (C06). `VectorCost`'s `>` holds between equal
  vectors (C14). `Transitions.remove` with no label, see C11.
* `ts_ba_sync_prod` raises `KeyError` for labeled edges of a system with actions, and an exception
  when two states of the automaton are joined both by the label and by `{True}` (C22).
* `ba_ts_sync_prod` looks a state up by substring; `OnTheFlyProductAutomaton.add_successors` returns
  only the last new states, and `add_all_states` misses states (C83).
* Compositions merge joint moves with equal attributes, raise for cost together with probability and
  for the empty list, and change the dictionary of the caller (C23).
* `random_run` and `interactive_run` do not advance; `strip_ports` raises when parallel edges lose all
  ports; `mealy2moore` ignores all but one initial state; `python_case` emits `if :` for edges without
  inputs (C19–C21).
* `tuple2fts` with actions always raises, without a prefix labels raise `KeyError`; a first label with two
  propositions is taken for a pair; labels are not checked; strings as labels give their characters as
  propositions; `add_initial_states` does nothing (C88).
* States that are not accepting cannot be removed from an automaton (`ValueError`, after they were
  dropped from the initial states), no state can be removed from a Rabin automaton (`TypeError`);
  `RabinPairs.add_states` may add half of its arguments; `tuple2ba` with a set of letters raises
  (C89–C91).
* `FiniteStateAutomaton.remove_node` raises `ValueError`; `CartesianProduct.__contains__` raises
  `TypeError`.
* The parity attractor misses nodes of the opponent with two or more successors, and `max_color`
  returns a node; therefore `McNaughton` raises, runs forever or returns a wrong winner
  (C64). `mvp` raises when a state of a rule is not accepting and looks names up by substring (C15).

### Continuous systems
* `add_grid` in dimension one raises `UnboundLocalError`; a cell size that is not positive loops for
  ever (C58, C69). With a bounded horizon `solve_feasible` returns points outside of the start cell
  (C61).
* `get_max_extreme` raises `ValueError` for more than ten vertices. `createLM` ignores a set of
  disturbances that is not full-dimensional (or raises `ValueError`, in several dimensions), and the
  effect of disturbances on a `Uset` that constrains the state when they have none on the polytopes of
  the states (C92, C94).
* `get_input` does not minimise the documented cost: with the norms 1 and infinity the initial state is
  ignored, the term of `mid_weight` is not the distance from the center, and the weight is added to `R`
  once more for each polytope, so their order matters; the caller's `R` and `r` are modified. With
  `mid_weight <= 0` and a cost given, a region with polytopes is never reached (C96, C97).
* `LtiSysDyn` without `A` always raises; `PwaSysDyn.from_lti` and `SwitchedSysDyn.from_lti` raise
  `AttributeError` unless the optional `A`, `B`, `E`, `K` are all given (C98).
* Dual discretization: `IndexError` for PWA systems and with `remove_trans`, and no termination when
  intersections are disconnected (C70). With `conservative=True` the map to the original cells is
  incomplete.
* `multiproc_discretize_switched`: the parent reads one result for each worker without a timeout and does not
  look at exit codes, so the call never returns if a worker raises. A worker passes all parameters of
  the mode to `get_transitions`, which knows only `N`, `closed_loop` and `trans_length`: with any other
  parameter of `discretize` the call never returns, while `discretize_switched` does
  (`parSwitched_unknown_counterexample`). `closed_loop` reaches `get_transitions` only in the parallel version.
* `discretize_switched`: the default `disc_params=None` raises `KeyError`, integer mode names raise
  `ValueError`; `merge_partitions({})` returns `None` (C72).
* Time data: a subsystem shared by two systems is overwritten, nested systems are not checked, `nan`
  is accepted as a time step (C63).

### Grid worlds
* `__eq__` compares with `any` instead of `all` (C54); `subworld` reaches outside with `extend`; `dump`
  loses marks on occupied cells (C50); `add_trolls` uses global coordinates for the moves of a troll
  whose variables are local (C77); Boolean mode with no free cell gives an empty clause, occupied
  initial cells leave the first step unconstrained (C51).
* `random_world(ensure_feasible=True)` undoes each wall that breaks the chain of points and draws again, so
  that it never ends if no further wall fits. `narrow_passage` accepts `ptop` outside the world, counts the
  columns left of the goal zone instead of those in it when it tests for too many goals, and raises from
  the random generator when the passage is as tall as the world and `ptop` is not given (C107).

### Simulation of machines
* `interactive_run` never ends once a state has a transition: the loop that asks for a selection has no
  `break`, and a bare `except` also catches an interrupt from the keyboard (C108).

### Interfaces
* gr1c sessions: a state vector with extra keys sends positions instead of values, the end of the
  output loops for ever, the prompt is removed by its length (C79).
* PRISM files: probabilities are rounded to four decimals, so that their sum may not be 1; an atomic
  proposition without a state gives an empty label (C99). `model_checking` has no entry for unreachable
  states and needs that labels tell states apart (C101). The policy may have an action that does not lead
  where the scheduler goes, and rounding can make all actions fail; a Markov chain has no attribute
  `actions` (C102).
* `load_aut_xml` raises `AttributeError` if there is no text between the element `aut` and its first node
  (it calls `getchildren`, removed from Python), and with a namespace other than the default it loses
  the variables. `load_mealy` creates a `ValueError` for an unknown format without raising it, and then
  raises `UnboundLocalError` (C103).
* The interface to slugs does not look at `qinit` (C105): the file is the same for `\E \E` and `\A \E`.
* If the package `omega` is missing, `interfaces/omega.py` cannot be imported: `except ImportError` leaves
  the name `trl` undefined, which the annotation of a function uses (C104, by reading; imports are not
  modelled).
* The parser of never claims takes `skip` for a syntax error, which it only logs, so that `accept_all` has no
  transitions; and the state `accept_init` is initial but not accepting. In both cases the automaton accepts
  other words than the claim (C106).
* `ltl2ba()` refers to the undefined name `ltl2baint`; `gr1_fragment.check` calls a method that does not
  exist; `LabeledGameGraph()` raises `TypeError`; `verify_transitions` filters the parameters with
  the misspelled name `close_loop`. These functions are not modelled.
* `fts2promela` calls `transitions.find(..., as_dict=True)`, which has no such parameter: it becomes a desired
  label, so that transitions with actions are dropped. The label of the initial state is lost, spaces are
  replaced in labels but not in `goto`, and a state without transitions gives `if fi`, a syntax error (C109).
* `mealy2scxml` closes each element `transition` twice (`.../>` and then `</transition>`), so that the file of any
  machine with a transition is not well-formed XML (by reading, not modelled).
* `GridWorld.dump_ppartition(nonbool=False)` names the cells without the offset of the world, unlike `world[i, j]`
  (`cellProp_counterexample`, C111).
* `GridWorld.pretty(goal_order=True)` misaligns the rows if there are more than ten goals
  (`pretty_order_counterexample`, C112).
* `simulate2d` raises for every `qinit`: `_simulate2d_ea()` and `_simulate2d_ee()` are called without their argument
  `ctrl`, and `_simulate2d_aa()` mentions undefined names (`simulate2d_raises`, C114). Its loop ignores `sys_dyn.K`
  (`simulate_offset_counterexample`), and its assertion fails if the point is also in an earlier region
  (`simPeriod_iff`).
* In nonconservative mode `get_input` keeps the states in the region of `orig_ppp` (before convexification), and raises
  if this region is not a single polytope, although the transitions were computed with its convex pieces (C113 has the
  hypothesis that it returns).
* By reading, not modelled: `plot_trajectory` calls `plot_partition` without the partition; `plot_abstraction_scc` calls
  `functools.partial(color=color)` without a function; `States.forward_reachable` and `backward_reachable` pass the
  `States` object instead of the graph to networkx; `LabeledDiGraph(deterministic=True)` has no effect, since the call of
  `_breaks_determinism` is commented out; `project_strategy_on_partition` looks for `loc` in the labels of states, whereas
  Mealy machines carry it on transitions; `LabeledDiGraph.is_consistent` uses `TypedDict.is_consistent`, which unpacks keys.
* `discretize(conservative=True)` returns maps `ppp2orig` and `ppp2pwa` with one element, so that the methods of these names,
  `ppp2trans` and `verify_transitions` raise `IndexError` for other regions than the first
  (`discretize_conservative`, `verifyTransitions_conservative_counterexample`).
* `verify_transitions` selects `'close_loop'` from the parameters, but the key is `'closed_loop'`: it always uses the
  closed-loop algorithm and at most 5 polytopes (`AbsPwa.verifyOne`).
* `lily.synthesize` returns a machine without states for each realizable specification: `_lily_strategy2moore` keeps only the
  lines that contain `"title"` (`strategy2moore_empty`, `lily_realizable_counterexample`). If an edge were read, `attr['label']`
  of a string would be a `TypeError` (`lily_edge_counterexample`). A strategy of an earlier call is read if Lily writes none
  (`lily_stale_counterexample`).
* `parse(…, full_operators=True)` replaces names of operators inside of dotted variables and of quoted constants
  (`full_names_variable_counterexample`).
* `LabeledDiGraph.is_consistent` raises `AttributeError` for every nonempty graph, since networkx stores labels in plain dictionaries, which have no such method (`Ltype.isConsistent_spec`, `Ltype.label_stale_counterexample`).
* A label type declared again without default keeps the earlier default; if the new type does not allow it, no state can be added (`Ltype.redeclared_default_counterexample`, `Ltype.bad_default`).
* The flag `deterministic` of a labeled graph has no effect (`Ltype.deterministic_counterexample`).
* (read, not modelled) `States.forward_reachable` and `backward_reachable` pass the `States` object to networkx in place of the graph; `States.find` changes the dictionary of its caller.
* The DOT export looks for accepting states in `graph.states`, which never has that attribute, so accepting states are
  drawn like all others (`Dot.accepting_hidden`, `Dot.accepting_shape_counterexample`). With `tikz` it raises `NameError` for
  every graph with a state (`Dot.tikz_raises`). A gradient needs `top_color` and `bottom_color` even if `left_color` and
  `right_color` are given (`Dot.gradient_counterexample`). A graph of class `LabeledDiGraph` is drawn without transitions
  (`Dot.no_format_no_edges`).
* `save('fig.pdf')` writes DOT text to `fig.pdf` and the picture to `fig.pdf.pdf` (`Dot.save_path_counterexample`); saving a
  transition system as Promela raises `AttributeError`, since `_save` reads `env_vars` (`Dot.save_promela_raises`).
* `mealy2scxml` raises `TypeError` for every machine, since a `SubSet` cannot be called (`Scxml.mealy2scxml_raises`). If this
  is repaired, it closes each transition twice, so its result is not XML if there is a transition
  (`Scxml.intended_xml_iff`).
* Membership in a `CartesianProduct` gives each pair to `operator.contains` as one argument, so it raises `TypeError`
  whenever there is a factor and a component, and says `True` otherwise (`cprod_contains`).
* The documentation of `PowerSet` assigns a list to `math_set`, which raises `TypeError`
  (`powerSet_setMathSet_counterexample`), and calls `remove`, which does not exist.
* `GR1CSession.reset` forgets the file when the old solver fails to exit cleanly; a further `reset()` then returns `True`
  although no solver runs (`Iface.reset_counterexample`).
* C123: `FunctionOnLabeledState.save(path, transys)` always fails for a `FiniteTransitionSystem`, whose labels are sets (`save_transys_counterexample`), after emptying the file. A single input key that contains `state` is accepted and useless (`init_substring_counterexample`).
* C05: `TypedDict.set_types` does not check the items that are there (`setTypes_counterexample`).
* C125: `LTL.load` with the name of a file opens it with the mode `'rU'`, which Python 3.11 removed, so it raises `ValueError` there for every file (`load_name`), while the package allows Python 3.11.
* `abstract/plot.py`, `project_strategy_on_partition`: documented as the spatial transitions that are used by the strategy, but it looks for `loc` in the labels of states, which the machines of `strategy2mealy` do not have (the variables label the edges), so the matrix is always empty (`Plot.projectStrategy_empty`).
* `animate_paths` with a prefix writes images in which the grid world is not drawn: `init` is called only by `FuncAnimation`
  (`animate_writes`).
* `plot_mode_partitions` of an abstraction without a merged partition fails with `AssertionError` after the pictures were made
  (`plotModePartitions_unmerged`).
* `contrib/readlbt.py`: of two transitions between the same states only the last gate is kept (`Lbt.readlbt_parallel_counterexample`);
  after a state without transitions the next state is read as its transitions (`Lbt.readlbt_dead_counterexample`).
* `contrib/spin2dstar.py`: binary operators have no precedence (`Spin.spinToDstar_precedence_counterexample`); names such as `G` or `i`
  are not quoted (`Spin.spinToDstar_ambiguous_counterexample`); the module-level stack is not cleared when parsing fails, so that all
  later calls fail (`Spin.calls_fail`).
* `contrib/fmu`: where the exported controller has no edge for an input, `fsm_transition` returns location 0 and enters the first state
  (`Fmu.fsm_undefined`, `Fmu.fsm_undefined_counterexample`); `mealyexport` removes the initial state from the controller, so that it
  cannot be exported or run again (`Fmu.mealyexport_twice`).
* `contrib/matlabsim/tomatlab.py`: the location of a state is that of the last edge into it (`Matlab.exportMealy_loc_counterexample`);
  `export` raises `NameError` (`StandardError` is undefined in Python 3) when only some of the continuous arguments are given.
* `contrib/xml/xmlio.py` calls `Element.getchildren`, which Python 3.9 removed, while its annotations need Python 3.10 (see C144).
* `contrib/fmu/sources/TuLiPControl.c`: the first transition reads zeros instead of the inputs of the environment (`Fmu.control_schedule`);
  the comment of `fmiGetMaxStepSize` says that the step is zero after an increment, but it is zero before one (`Fmu.master_ticks`).
* `contrib/aut2simulink.py` has a syntax error (line 338, unbalanced parenthesis in an f-string), so that it cannot be imported; not modelled.
* `contrib/mptmodels/mpt2python.py`: `load` calls `load_lti` with one argument too few, so that it raises `TypeError`; not modelled.
* `contrib/AES/AES_specgen.py` cannot be imported: the formatted strings of lines 351 and 693 have brackets that do not match. It also writes `env_vars[ru1']`, without the opening quote. Not modelled.
* `contrib/fmu/sources/polytope.c`: `isInside` compares every row with `b[l]` (`Fmu.isInside_counterexample`). `exportSysData` exports the
  matrices `A` and `B` but not the offset `K` of the dynamics, and only the first polytope of each region; the controller ignores the exit
  flag of the solver, so that an infeasible problem gives an arbitrary input.
* C140: the optimization of an exported controller (`compute_control` in `contrib/fmu/sources/TuLiPControl.c`) requires the state to stay in the current cell of the partition. By default `discretize` is not conservative and finds the transitions with the whole region of the given partition as the set for the states in between. So an exported controller may have no solution for a move that the abstraction offers: `leave_counterexample`. For states in between in the cell, the two agree: `canMove_iff_driven`. The constant term `K` and the disturbances of the system are not exported at all, and `use_all_horizon` is not supported (a move takes exactly `N` steps).
* C141: `fmiSetReal`, `fmiSetInteger` and `fmiGetReal` ignore references that are out of range and return `fmiOK`, although their comments promise `fmiError`. `exportXML` does not check that the names of variables are different (`xmlVars_names_counterexample`).
* C142: `contrib/readdstar.py` cannot be imported: the brackets of line 111 do not match. `readdstar` uses the attribute `edge` of graphs, which `networkx` has not had since version 2.4. A pair in no signature remains `None`, and `__str__` would raise `AttributeError` for it.
* C144: `contrib/xml/xmlio.py` reads the text of a bool as an integer, reads every `numpy.bool_` as true, passes `type_STR` to
  `_import_list` for sets and loses the propositions of regions (`XmlIo.import_bool_set_counterexample`,
  `XmlIo.import_props_counterexample`). `exportXML` raises for lists, dictionaries and numbers; with Python 3.9 or later it raises for all data,
  because elements have no `getchildren`. An empty text is `None` after the file is parsed. Exported transition systems cannot be imported.
