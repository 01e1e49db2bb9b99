{"id": "C01", "title": "MathSet behaves as a mathematical set", "statement": "After any history of add / add_from / |= / remove / -= / - / | / intersection calls on a MathSet in which no add_from call mixes hashable items with tuples that contain unhashable ones (and iterators carry hashable items only), membership, iteration, len, emptiness and equality agree with the abstract finite set obtained by applying the same operations, no element is ever listed twice, and remove of an absent element raises ValueError and changes nothing. (Mixed calls break membership.)", "quantifier": "all histories of operations and all elements, hashable or unhashable", "why_tests_cant": "the two internal stores (hashed set, list for unhashables) must stay in sync after every history; tests sample a few histories", "anchors": ["tulip/transys/mathset.py: MathSet.add", "MathSet.add_from", "MathSet.remove", "MathSet.__contains__", "MathSet.__iter__", "MathSet.__len__"]}
{"id": "C02", "title": "compare_lists is equality of multisets", "statement": "compare_lists(a, b) returns True exactly when a and b contain the same elements with the same multiplicities, in any order.", "quantifier": "all pairs of finite lists over a type with equality", "why_tests_cant": "unbounded lengths and all orders/multiplicities", "anchors": ["tulip/transys/mathset.py: compare_lists"]}
{"id": "C03", "title": "A SubSet never leaves its superset", "statement": "Every element of a SubSet is an element of the superset given at construction, after any history of add / add_from (accepted or rejected) / remove on the subset; rejected calls leave the subset unchanged. With a MathSet as superset, the constructor, add and add_from accept exactly the members of the superset and raise ValueError otherwise.", "quantifier": "all supersets and all operation histories", "why_tests_cant": "invariant over unbounded histories including failing calls", "anchors": ["tulip/transys/mathset.py: SubSet.add", "SubSet.add_from", "SubSet.__init__"]}
{"id": "C04", "title": "PowerSet enumerates exactly the subsets", "statement": "For a PowerSet over a finite set: S is a member iff every element of S is in the base set; iterating yields every subset exactly once; len is 2**len(base); powerset(iterable) yields every sublist exactly once.", "quantifier": "all finite base sets", "why_tests_cant": "exponential, unbounded domain", "anchors": ["tulip/transys/mathset.py: PowerSet", "powerset"]}
{"id": "C05", "title": "TypedDict stores only admissible values", "statement": "After set_types on an empty TypedDict and any sequence of item assignments, update and setdefault calls (accepted or rejected), every typed key holds a member of its allowed set; an item assignment succeeds iff the value is admissible, otherwise raises ValueError and changes nothing. (A rejected update keeps the items before the rejected one; is_consistent unpacks keys and is wrong.)", "quantifier": "all assignment histories, all type tables", "why_tests_cant": "history invariant", "anchors": ["tulip/transys/mathset.py: TypedDict.__setitem__", "TypedDict.set_types"]}
{"id": "C06", "title": "Edge insertion keeps the labeled graph well formed", "statement": "After any history of node and edge insertions and removals, edge endpoints are declared states, label values are allowed by their types, and (for types without default edge labels) no two edges between the same two states have the same label, so there is at most one unlabeled edge. add_edge succeeds exactly when both endpoints are states, the values are allowed, the keys are typed and no unlabeled edge joins the two states; it then adds exactly that edge, or nothing if the same labeled edge exists; a rejected insertion changes nothing. (An unlabeled edge may be added beside labeled ones, although the documentation excludes mixing them, and with default labels repeated calls duplicate edges.)", "quantifier": "all histories of state/transition additions and removals", "why_tests_cant": "invariant over unbounded histories, including failing calls", "anchors": ["tulip/transys/labeled_graphs.py: LabeledDiGraph.add_edge", "LabeledDiGraph.add_node", "States.add", "Transitions.add"]}
{"id": "C07", "title": "Initial states are always states", "statement": "After any history of adding and removing states (through the states and transitions containers), initial states and edges, every initial state is a state of the system, listed once, states.post() returns exactly the initial states, and adding an initial state that is not a state is rejected with ValueError. (networkx's own remove_node bypasses this: it leaves the removed state in states.initial.)", "quantifier": "all histories of operations", "why_tests_cant": "history invariant across two linked containers", "anchors": ["tulip/transys/labeled_graphs.py: States.remove", "States.add", "States.initial", "tulip/transys/mathset.py: SubSet"]}
{"id": "C08", "title": "Transition search returns exactly the matching edges", "statement": "transitions.find(from, to, with_attr) returns exactly the edges whose source is in from (or any), whose target is in to (or any), and whose label matches: no label requested, edge without label, equal label, or the same label types with each value matching by the guard semantics of its type (equality when it has none); each edge occurs with its multiplicity and label. states.find likewise. (A request for only some of the label types of an edge does not match it.)", "quantifier": "all graphs and all queries", "why_tests_cant": "all graphs, all sub-label combinations", "anchors": ["tulip/transys/labeled_graphs.py: Transitions.find", "LabeledStatesDiGraph", "label_is_desired"]}
{"id": "C09", "title": "pre and post are dual and exact", "statement": "states.post(X) is exactly the set of targets of edges leaving X, states.pre(Y) the sources of edges entering Y, and x in pre({y}) iff y in post({x}).", "quantifier": "all graphs and state sets", "why_tests_cant": "quantifies over all graphs", "anchors": ["tulip/transys/labeled_graphs.py: States.post", "States.pre"]}
{"id": "C10", "title": "remove_deadends leaves exactly the states with infinite runs", "statement": "remove_deadends removes precisely the states from which no infinite run exists, keeps every transition among the remaining ones, and afterwards no dead-end exists; if no state survives in a nonempty graph it raises AssertionError.", "quantifier": "all finite graphs and all orders in which dead-ends are visited", "why_tests_cant": "greatest-fixpoint property over all graphs", "anchors": ["tulip/transys/labeled_graphs.py: LabeledDiGraph.remove_deadends", "LabeledDiGraph.has_deadends"]}
{"id": "C11", "title": "transitions.remove and states.remove remove exactly what is requested", "statement": "transitions.remove(u, v, attr) removes exactly the edges between u and v whose attributes equal attr and nothing else; states.remove(s) removes exactly s, its edges and its mark as initial. (With no attributes only unlabeled edges are removed, although the documentation promises all edges between u and v.)", "quantifier": "all graphs, pairs and labels", "why_tests_cant": "all graphs", "anchors": ["tulip/transys/labeled_graphs.py: Transitions.remove", "LabeledDiGraph.remove_labeled_edge"]}
{"id": "C12", "title": "Bulk insertion from an adjacency matrix adds exactly its edges", "statement": "transitions.add_adj(A, states, label) with a square A, a list of distinct states of the graph, an admissible label and no unlabeled edges among these states yields a graph whose edges are the earlier ones and an edge states[i] -> states[j] with that label for each nonzero A[i,j], and nothing else; unknown states or a non-square matrix are rejected without changing the graph. (With a dictionary from indices to states the indices are looked up among the states, so correct calls are rejected.)", "quantifier": "all matrices and graphs", "why_tests_cant": "all sizes", "anchors": ["tulip/transys/labeled_graphs.py: Transitions.add_adj", "tulip/abstract/prop2partition.py: ppp2ts"]}
{"id": "C13", "title": "Single-source shortest paths are shortest", "statement": "dijkstra_single_source_multiple_targets returns, for a reachable target, a genuine path of the graph from source to target whose cost is the claimed cost and no path to any target is cheaper; it returns infinite cost and an empty path iff no target is reachable. The multi-source variant is minimal over sources.", "quantifier": "all finite graphs with nonnegative (ordered monoid) costs, all heap tie-breaking orders", "why_tests_cant": "optimality over all graphs and schedules of the priority queue", "anchors": ["tulip/transys/graph_algorithms.py: dijkstra_single_source_multiple_targets", "dijkstra_multiple_sources_multiple_targets"]}
{"id": "C14", "title": "Vector costs are ordered lexicographically", "statement": "VectorCost comparison is lexicographic: on vectors of equal length (a number stands for the vector of that number) `<` is the strict lexicographic order, irreflexive, transitive and total, `>=` is its complement and `==` is equality; vectors of different length raise ValueError; addition is entry by entry, and ValidTransitionCost accepts exactly the vectors that are not lexicographically less than zero, so shortest-path search with such costs returns a lexicographically least path. (`>` also holds on equal vectors and `<=` does not, contrary to their names: both facts are stated as theorems.)", "quantifier": "all pairs of cost vectors of equal length", "why_tests_cant": "all lengths and values", "anchors": ["tulip/transys/cost.py: VectorCost"]}
{"id": "C15", "title": "Minimum-violation planning returns genuine plans, and least-violating ones for one-state rules", "statement": "A plan returned by the minimum-violation planner is a path of the system from an initial state to a goal state, with the lexicographic cost (priorities violated per level, then transition costs) that some run of the rule automata gives it; and when every rule automaton has a single state no plan has a smaller cost, and a failed search means there is no plan. (With more than one automaton state the product lacks edges and the result can be suboptimal; state names that contain one another confuse the cost.)", "quantifier": "all systems, specifications, goals and tie-breaking orders of the priority queue", "why_tests_cant": "all product sizes", "anchors": ["tulip/mvp.py: _add_transition", "_construct_weighted_product_automaton", "_get_rule_violation_cost"]}
{"id": "C16", "title": "Mealy reaction is the unique enabled transition", "statement": "reaction(state, inputs) returns (next state, outputs) iff exactly one edge leaving the state has those inputs (with lazy=True: agrees with the inputs given), and otherwise raises ValueError; the returned outputs are that edge's outputs.", "quantifier": "all machines, states and inputs", "why_tests_cant": "all machines", "anchors": ["tulip/transys/machines.py: MealyMachine.reaction", "guided_run"]}
{"id": "C17", "title": "A guided run of a Mealy machine is an execution", "statement": "guided_run(m, s, input_sequences) either raises, or returns a state sequence and output sequences of the length of the inputs such that each consecutive pair is a transition of the machine with the given inputs and returned outputs; for a deterministic complete machine it never raises and the run is unique.", "quantifier": "all machines, start states and input sequences", "why_tests_cant": "unbounded runs", "anchors": ["tulip/transys/machines.py: guided_run", "interactive_run / reaction"]}
{"id": "C18", "title": "moore2mealy preserves input/output behaviour", "statement": "moore2mealy(m) keeps the ports, the states and the initial states, and its executions are exactly those of the Moore machine, the output of the state that is left being attached to the transition.", "quantifier": "all Moore machines and input words", "why_tests_cant": "unbounded runs", "anchors": ["tulip/transys/machines.py: moore2mealy"]}
{"id": "C19", "title": "mealy2moore preserves input/output behaviour", "statement": "For a Mealy machine with an initial state, nonempty output types and a value for each port on each edge, mealy2moore(m) terminates whatever the order in which pending states are taken; from its only initial state, which stands for the first initial state of m, its executions over any input word emit, at the states entered, exactly the outputs of m, and conversely.", "quantifier": "all Mealy machines with labeled edges, all input words, all orders of the worklist", "why_tests_cant": "unbounded runs; worklist order", "anchors": ["tulip/transys/machines.py: mealy2moore"]}
{"id": "C20", "title": "strip_ports projects the language", "statement": "strip_ports(m, names) yields a machine with the same states whose executions are exactly those of m with the named ports erased from every label (it raises Exception exactly when erasing leaves an edge unlabeled that another edge follows between the same states).", "quantifier": "all machines and port sets", "why_tests_cant": "unbounded runs", "anchors": ["tulip/transys/machines.py: strip_ports", "trim_dict", "project_dict"]}
{"id": "C21", "title": "Generated Python controller follows the machine", "statement": "For a deterministic Mealy machine whose edges have a value for each port, the class emitted by python_case compiles, starts in the given state, and fed any input word goes through exactly the states and returns exactly the outputs of the machine; an input for which the state has no transition raises ValueError and a state without transitions raises RuntimeError.", "quantifier": "all deterministic machines and input words", "why_tests_cant": "unbounded executions of generated programs", "anchors": ["tulip/dumpsmach.py: python_case"]}
{"id": "C22", "title": "Synchronous product of a transition system and a Büchi automaton", "statement": "ts_ba_sync_prod (of a transition system whose edges carry no actions, with an automaton whose edges carry letters and never join two states both by a state's label and by {True}) succeeds and returns exactly the states reachable from the initial product states, an edge ((s,q),(s',q')) iff s->s' and q reads the label of s' to q', initial states (s0,q) with q reached by reading L(s0), and accepting states those with accepting q; hence a run of the TS is accepted by the BA iff the product has an accepting run projecting on it.", "quantifier": "all finite TS/BA and all exploration orders", "why_tests_cant": "unbounded runs; worklist order", "anchors": ["tulip/transys/products.py: ts_ba_sync_prod", "find_ba_succ", "find_prod_succ"]}
{"id": "C23", "title": "Synchronous composition of transition systems / MDPs", "statement": "For at least one model of compatible classes (KS with WKS, or KS with MC and MDP), synchronous_parallel returns a model whose states and initial states are the tuples, whose labels are unions, and whose transitions are exactly the joint moves, with the sum of the costs, the product of the probabilities and the tuple of the actions; for chains and processes with at most one transition per pair of states and action, the total probability of a joint action is the product of the total probabilities, so a composition of stochastic models is stochastic. (With parallel transitions of one action joint moves of equal probability collapse and probability is lost; a cost together with a probability raises AttributeError; no models raise TypeError.)", "quantifier": "all lists of models", "why_tests_cant": "all sizes", "anchors": ["tulip/transys/compositions.py: synchronous_parallel"]}
{"id": "C24", "title": "Applying a policy to an MDP yields its induced Markov chain", "statement": "For a policy that chooses an action at every state of an MDP whose transitions all carry an action, apply_policy(mdp, policy) has the same states, initial states and labels and exactly the transitions of the chosen actions with unchanged probabilities, so it is stochastic whenever the MDP is; a state without a choice or a transition without an action raises KeyError, a model that is no MDP raises TypeError.", "quantifier": "all MDPs and policies", "why_tests_cant": "all sizes", "anchors": ["tulip/transys/compositions.py: apply_policy"]}
{"id": "C25", "title": "Bisimulation abstraction", "statement": "simu_abstract(ts,'bi') terminates and returns a partition of the states, refining equality of labels, whose quotient transition relation is bisimilar to the input: a cell has a transition to another iff every (equivalently some) of its states has a successor there. The partition is the coarsest such (states related by any bisimulation that respects the printed labels share a cell).", "quantifier": "all finite transition systems and all splitting orders", "why_tests_cant": "fixpoint over all graphs and iteration orders", "anchors": ["tulip/transys/transys.py: simu_abstract", "_pre", "_output_fts"]}
{"id": "C26", "title": "Dual-simulation abstraction", "statement": "simu_abstract(ts,'dual') terminates and returns a cover of the states by label-homogeneous, pairwise different cells such that cell transitions are sound (every state of the source cell has a successor in the target cell) and complete in the dual-simulation sense (for every transition from a state of cell i to a state of cell j, the states of i with a successor in j form a cell with a transition to j); hence finite paths of the input and of the abstraction correspond.", "quantifier": "all finite transition systems", "why_tests_cant": "fixpoint", "anchors": ["tulip/transys/transys.py: simu_abstract", "_output_fts"]}
{"id": "C27", "title": "mutex and exactly_one mean what they say", "statement": "For every list of formulas given as strings, mutex returns formulas that hold at a position of a trace iff at most one of the given formulas holds there, and exactly_one returns formulas that hold iff exactly one does (distinct formulas; at least one for exactly_one).", "quantifier": "all variable lists and all valuations", "why_tests_cant": "all lengths, all valuations", "anchors": ["tulip/synth.py: mutex", "exactly_one", "_conj_intersection / _conj_neg_diff"]}
{"id": "C28", "title": "State and action encodings are faithful", "statement": "iter2var returns for values of one sort (strings if they are Booleans) and a variable that is not declared already. It gives, for each value of a finite domain, a formula that holds at a position of a trace iff the value is selected there, together with constraints and variable declarations such that every valuation allowed by them selects at most one value ('mutex') or exactly one ('xor', for contiguous integers, or two or more Booleans), and every choice allowed by 'must' is represented by a valuation that the declarations and constraints allow.", "quantifier": "all domains", "why_tests_cant": "all domains and valuations", "anchors": ["tulip/synth.py: iter2var"]}
{"id": "C29", "title": "System transition systems compile to equivalent specifications", "statement": "A trace of the variables satisfies the system part (initial conditions and transition relation) of the specification returned by sys_to_spec iff it follows an execution of the FTS: one state is selected at each time, steps are transitions with the actions of the system and environment of the transition, the propositions are those of the state, the first state is initial (unless initial states are ignored), and sys_actions_must is respected. It satisfies the environment part iff env_actions_must is respected and in each step the environment takes the actions of one of the transitions, from the current state, that carry environment actions. The call returns for every system that refers only to states, actions and propositions it declares, under different names, and that has an initial state (unless ignored), and declares exactly the variables of the propositions, states and actions; it raises for a system of the environment, a proposition named like a state and missing initial states.", "quantifier": "all FTS and all infinite traces", "why_tests_cant": "infinite traces; all systems", "anchors": ["tulip/synth.py: sys_to_spec", "_sys_trans_from_ts", "_sys_init_from_ts", "_ap_trans_from_ts"]}
{"id": "C30", "title": "Environment transition systems compile to equivalent assumptions", "statement": "A trace satisfies the environment part of the specification returned by env_to_spec iff it follows an execution of the environment FTS and respects env_actions_must (as long as the system does not block the environment by taking no action in a state all of whose transitions depend on system actions); in each step of any trace, the formulas hold iff a transition is taken or the environment is blocked. The system part says only that sys_actions_must is respected. The call returns for every environment that refers only to what it declares, as for sys_to_spec, and declares exactly the variables of the propositions, states and actions.", "quantifier": "all FTS and all infinite traces", "why_tests_cant": "infinite traces", "anchors": ["tulip/synth.py: env_to_spec", "_env_trans_from_env_ts"]}
{"id": "C31", "title": "Mealy machine extracted from a strategy has the strategy's behaviour", "statement": "strategy2mealy returns a machine with the declared variables as ports (with their domains) and one new initial state; every other transition goes along an edge of the strategy and carries the input/output values of the node it enters (string variables decoded); for each valuation of the variables at nodes allowed initially there is exactly one initial transition, to such a node; executions of the machine are exactly the plays of the strategy that start at the target of an initial transition. It returns for every strategy whose nodes give all variables values in their domains, whose edges join nodes, and whose listed initial nodes (at least one) are nodes. (The documented error for a strategy with no initial node is never raised.)", "quantifier": "all strategy graphs", "why_tests_cant": "unbounded runs", "anchors": ["tulip/synth.py: strategy2mealy"]}
{"id": "C32", "title": "determinize_machine_init keeps one initial reaction per input", "statement": "determinize_machine_init keeps the ports, states and non-initial edges; it keeps initial edges only if they have the given output values, exactly one for each valuation of the inputs for which there was such an initial edge; it raises nothing if the initial edges carry all ports.", "quantifier": "all machines and all output preferences", "why_tests_cant": "all machines", "anchors": ["tulip/synth.py: determinize_machine_init"]}
{"id": "C33", "title": "Trimming a strategy and masking outputs", "statement": "_trim_strategy returns None for no strategy; with rm_deadends the states kept are exactly those of the machine from which an infinite path starts, with all the edges between them, and AssertionError is raised if there are none. mask_outputs leaves a machine with no zero outputs unchanged, and otherwise raises RuntimeError (it is documented to erase the zero outputs, but fails at the first one).", "quantifier": "all strategy graphs", "why_tests_cant": "all graphs", "anchors": ["tulip/synth.py: _trim_strategy", "mask_outputs"]}
{"id": "C34", "title": "Parsing a printed formula returns the same formula", "statement": "For every AST that uses the canonical operator spellings, valid non-reserved identifiers, no string constants and non-negative truncation counts, parsing its flattened string yields the same AST; distinct such ASTs print differently. The parser accepts exactly the documented grammar, and operator precedence and associativity follow the documented table.", "quantifier": "all such ASTs; all token strings for the grammar", "why_tests_cant": "unbounded depth", "anchors": ["tulip/spec/lexyacc.py: grammar", "tulip/spec/ast.py: flatten", "tulip/spec/parser.py: parse"]}
{"id": "C35", "title": "LTL dumps/loads round trip", "statement": "LTL.loads(f.dumps()) declares the same variables in the same order, with the same domains, and has the same formula, for Boolean, integer-range and nonempty integer-set domains, with or without the time stamp. (Names contain no '#', ':', ';', '%' and no surrounding whitespace; the formula contains no '#' and no '%%' at the end of a line. False for sets of strings, for the empty set and for formulas with '#'.)", "quantifier": "all variable tables and formulas in the format's syntax", "why_tests_cant": "unbounded strings", "anchors": ["tulip/spec/form.py: LTL.dumps", "LTL.loads"]}
{"id": "C36", "title": "Conjunction of GR(1) specifications", "statement": "The union `a | b` of two specifications declares the variables of both and its assumption/guarantee parts hold on a trace iff those of a and of b do; it raises when a shared variable has two different domains. The operands are unchanged. declare adds exactly the given variables to the requested side; it returns exactly when none of them is declared on the other side and none is redeclared with another domain, and raises AssertionError otherwise. (Environment/system overlap is not rejected.)", "quantifier": "all pairs of specifications and traces", "why_tests_cant": "infinite traces", "anchors": ["tulip/spec/form.py: GRSpec.__or__", "GRSpec.copy"]}
{"id": "C37", "title": "to_canon and compile_init denote the GR(1) formula", "statement": "to_canon returns a formula equivalent to (env_init & [] env_safety & []<> env_prog) -> (sys_init & ...), and compile_init evaluates to `not env_init or sys_init` (resp. the conjunctions) on every valuation.", "quantifier": "all specifications, valuations and traces", "why_tests_cant": "infinite traces", "anchors": ["tulip/spec/form.py: GRSpec.to_canon", "GRSpec.compile_init"]}
{"id": "C38", "title": "Replacing string values by integers preserves meaning", "statement": "For formulas in which string variables and string constants occur only in (dis)equalities between a variable and a constant of its domain, or between two variables with the same domain list, str_to_int succeeds, leaves no string constant, and a trace satisfies the formula iff the index-encoded trace satisfies the result; the integer domain declared for the variable is exactly the range of indices. (Two string variables with different domain lists are compared by index: false.)", "quantifier": "all formulas and valuations", "why_tests_cant": "all formulas", "anchors": ["tulip/spec/form.py: GRSpec.str_to_int", "tulip/spec/transformation.py: sub_constants"]}
{"id": "C39", "title": "Substitution of subformulas is simultaneous and semantic", "statement": "sub_bool_with_subtree replaces each occurrence of a Boolean variable by its formula, simultaneously, so that evaluating the result equals evaluating the original under the substituted valuation.", "quantifier": "all formulas, substitutions and traces", "why_tests_cant": "unbounded depth", "anchors": ["tulip/spec/transformation.py: sub_bool_with_subtree", "Tree.add_subtree"]}
{"id": "C40", "title": "Translation to Python preserves truth value", "statement": "For well-typed formulas without temporal operators over Boolean and integer variables and without string constants and multiplication/division, evaluating the translated Python expression gives the truth value of the formula under the same valuation. (String constants lose their quotes; '*' and '/' have no translation.)", "quantifier": "all formulas and valuations", "why_tests_cant": "unbounded depth", "anchors": ["tulip/spec/translation.py: _ast_to_python", "translate_ast"]}
{"id": "C41", "title": "Translation to gr1c priming preserves meaning", "statement": "For a formula over the gr1c operators in which X is not nested, the clause written for gr1c (X pushed to primed variables) parses and is satisfied by the same traces at the same positions; each section of the gr1c input denotes the conjunction of its clauses (under [] for safety, []<> for progress). (Nested X collapses.)", "quantifier": "all formulas and all steps", "why_tests_cant": "unbounded depth", "anchors": ["tulip/spec/translation.py: make_gr1c_nodes", "_to_gr1c"]}
{"id": "C42", "title": "Splitting a GR(1) formula into parts preserves meaning", "statement": "split_gr1 on a conjunction of initial, [] and []<> formulas succeeds and returns parts whose conjunction is satisfied by exactly the same traces (an empty part, returned as the empty string, standing for true), and whatever it accepts that has no weak-until operator is in that fragment. str_to_grspec accepts every implication between two such formulas, and nothing that does not parse or is not an implication. (It accepts weak until, and str_to_grspec puts the empty string in the specification when there is no initial or safety conjunct.)", "quantifier": "all formulas and traces", "why_tests_cant": "infinite traces, unbounded depth", "anchors": ["tulip/spec/gr1_fragment.py: split_gr1", "has_operator", "str_to_grspec"]}
{"id": "C43", "title": "stability_to_gr1 is correct", "statement": "A trace satisfies <>[]p iff there is a trace of the fresh auxiliary variable satisfying the returned specification.", "quantifier": "all infinite traces", "why_tests_cant": "infinite traces, existential over auxiliary traces", "anchors": ["tulip/spec/gr1_fragment.py: stability_to_gr1"]}
{"id": "C44", "title": "response_to_gr1 is correct", "statement": "A trace satisfies [](p -> <>q) iff there is an auxiliary trace satisfying the returned specification.", "quantifier": "all infinite traces", "why_tests_cant": "infinite traces", "anchors": ["tulip/spec/gr1_fragment.py: response_to_gr1"]}
{"id": "C45", "title": "eventually_to_gr1 is correct", "statement": "A trace satisfies <>p iff there is an auxiliary trace satisfying the returned specification.", "quantifier": "all infinite traces", "why_tests_cant": "infinite traces", "anchors": ["tulip/spec/gr1_fragment.py: eventually_to_gr1"]}
{"id": "C46", "title": "until_to_gr1 is correct", "statement": "A trace satisfies p U q iff there is an auxiliary trace satisfying the returned specification.", "quantifier": "all infinite traces", "why_tests_cant": "infinite traces", "anchors": ["tulip/spec/gr1_fragment.py: until_to_gr1"]}
{"id": "C47", "title": "Prioritized specification levels", "statement": "Rules of a PrioritizedSpecification are enumerated in priority-level order and, within a level, insertion order; len, indexing, get_rules_at and a single iteration agree; adding a rule never reorders or drops others, and a rejected rule changes nothing. (Two nested iterations over one specification interfere.)", "quantifier": "all histories of add_rule", "why_tests_cant": "history invariant", "anchors": ["tulip/spec/prioritized_safety.py: PrioritizedSpecification"]}
{"id": "C48", "title": "Undefined identifiers are rejected", "statement": "check_for_undefined_identifiers succeeds iff every variable of the formula is declared and raises ValueError otherwise, for formulas in which every number or string constant is below a binary operator. (A constant outside the domain of its variable is not rejected: that check is dead code.)", "quantifier": "all formulas and declarations", "why_tests_cant": "unbounded depth", "anchors": ["tulip/spec/transformation.py: check_for_undefined_identifiers"]}
{"id": "C49", "title": "Grid reachability is exact", "statement": "GridWorld.is_reachable(a, b) terminates and returns True iff there is a 4-connected path of empty cells from a to b (indices may be negative, counting from the end; indices out of bounds and empty instances raise ValueError).", "quantifier": "all grids and cells", "why_tests_cant": "unbounded grids, DFS termination", "anchors": ["tulip/gridworld.py: GridWorld.is_reachable"]}
{"id": "C50", "title": "Grid dump/load round trip", "statement": "Loading the dump of a world restores its size, its occupancy, and its initial and goal cells (as sets, for worlds whose marks lie on distinct free cells; in general the free initial cells, and the free goals that are not initial cells). A world that was itself loaded is restored exactly, including the order of its lists, and every loaded world has its marks on distinct free cells.", "quantifier": "all grids", "why_tests_cant": "unbounded grids", "anchors": ["tulip/gridworld.py: GridWorld.dumps", "GridWorld.loads"]}
{"id": "C51", "title": "Grid specification encodes exactly legal moves", "statement": "For a grid whose cells are free or occupied, with a nonempty list of free initial cells and goals inside the grid, the specification from GridWorld.spec constrains one side only (the system if controlled_dyn, else the environment), declares exactly the position variables, and is satisfied by an infinite trace (with values in the declared domains) iff the trace encodes a trajectory that starts in an initial cell, stays put or moves to a 4-neighbour that is inside the grid and free in every step, and visits every goal infinitely often. (With Boolean variables the offset must not be negative; initial cells that are occupied are excluded, because no formula constrains the step from an occupied cell.)", "quantifier": "all grids, prefixes, offsets and infinite traces, both encodings and both sides", "why_tests_cant": "infinite traces", "anchors": ["tulip/gridworld.py: GridWorld.spec"]}
{"id": "C52", "title": "Subworld extraction and scaling", "statement": "dump_subworld without extend returns exactly the window of the occupancy grid, and raises ValueError iff the window does not fit; with extend it returns the window, occupied outside of the grid, provided that the window meets the grid. scale(xf, yf) replaces each cell by a yf x xf block and moves the marks to the first cells of the blocks. (With extend and a window outside of the grid, cells of the grid are shown; a counterexample is proved.)", "quantifier": "all grids, windows and factors", "why_tests_cant": "unbounded grids", "anchors": ["tulip/gridworld.py: GridWorld.dump_subworld", "GridWorld.scale"]}
{"id": "C53", "title": "Coordinate names round trip", "statement": "extract_coord inverts the naming of grid variables: extract_coord(prefix + '_' + r + '_' + c) = (prefix, r, c), for every prefix and pair of integers; hence different cells have different names. It returns (prefix, -1, -1) for prefix_n_n and None for names with fewer than two underscores.", "quantifier": "all prefixes and coordinates", "why_tests_cant": "unbounded strings", "anchors": ["tulip/gridworld.py: extract_coord", "GridWorld.__getitem__"]}
{"id": "C54", "title": "Grid equality", "statement": "Two grid worlds compare equal iff both are empty instances, or they have the same size, the same lists of goals and initial cells, and the same occupancy of at least one cell. In particular worlds that have a cell and the same contents compare equal, and a loaded world equals its copy. (Not: equality implies the same occupancy, nor that a world without cells equals itself; counterexamples are proved.)", "quantifier": "all pairs of grids", "why_tests_cant": "all pairs", "anchors": ["tulip/gridworld.py: GridWorld.__eq__"]}
{"id": "C55", "title": "slugs bitfields decode to the encoded integers", "statement": "Decoding the bit variables that slugs returns gives, for every declared variable, the integer whose plain binary encoding they are, and the returned strategy has exactly the nodes and edges printed by slugs with these integers as states (variables with a nonnegative lower bound and a positive upper bound, and Boolean variables; a range (0,0) and a list of strings raise).", "quantifier": "all declared ranges, values, and printed strategies", "why_tests_cant": "unbounded integers", "anchors": ["tulip/interfaces/slugs.py: _bitfields_to_ints"]}
{"id": "C56", "title": "gr1c options follow the init quantification", "statement": "The option passed to gr1c is determined by qinit and by which initial conditions the specification has: the specifications accepted are exactly those whose qinit is supported with these initial conditions, and all others raise (without initial conditions, \\A \\A and \\E \\E give the same option).", "quantifier": "all specifications", "why_tests_cant": "decision logic over all cases", "anchors": ["tulip/interfaces/gr1c.py: select_options"]}
{"id": "C57", "title": "Propositions partition the continuous domain", "statement": "Given set operations that are exact up to negligible (lower-dimensional) sets, prop2part splits a domain into regions that lie in the domain, cover it and are pairwise disjoint up to negligible sets; each region lies inside every proposition of its label and meets every other proposition only in a negligible set; no two regions have the same label. preserves_predicates decides the labelling condition.", "quantifier": "all domains and proposition lists", "why_tests_cant": "all finite families of sets", "anchors": ["tulip/abstract/prop2partition.py: prop2part"]}
{"id": "C58", "title": "Grid intervals tile their range", "statement": "For a positive size, compute_interval terminates and returns intervals that follow each other from low to high, of the given size except the last one, which is at most size plus tolerance long; each point of [low, high) is in exactly one. (For a size that is not positive the loop does not end.) product_interval returns each combination once.", "quantifier": "all bounds and sizes", "why_tests_cant": "unbounded", "anchors": ["tulip/abstract/prop2partition.py: compute_interval", "product_interval"]}
{"id": "C59", "title": "Merging mode partitions is a common refinement", "statement": "For proposition-preserving partitions of the same domain with the same propositions, merge_partitions succeeds, whatever the order in which it visits the set of modes, and returns a common refinement: a proposition-preserving partition of the domain whose regions are, up to negligible sets, the intersections of their recorded parent cells (one recorded for each mode, with the same label), different regions differing in a parent; ap_labeling is the label of each region; the adjacency is symmetric and reflexive and relates different regions iff they are adjacent in space and have adjacent or equal parents in some mode. It raises if the propositions or domains differ.", "quantifier": "all families of partitions and merge orders", "why_tests_cant": "all families", "anchors": ["tulip/abstract/discretization.py: merge_partitions", "merge_partition_pair"]}
{"id": "C60", "title": "Discretization transitions are sound", "statement": "In the abstraction computed by the bisimulation-style discretization: the cells form a proposition-preserving partition of the domain and each lies within one cell of the given partition; a transition i -> j implies that from every state of cell i (up to a negligible set) the controller can drive the system to cell j through states of the given cell around i, whatever pairs were examined and in whatever order; no transition is missing: for each pair of cells that touch (or are within trans_length steps of adjacency) without a transition, the solver finds for the final cells that the target is not reachable from all of the source and that the source is too small to be divided; with a positive minimum cell volume the procedure terminates, and it raises no exception if the solver does not and every cell that is divided has a piece; the returned transition system has exactly these states, labels and transitions.", "quantifier": "all partitions, adjacency matrices, dynamics (through the solver's contract), parameters and orders of pair selection", "why_tests_cant": "fixpoint/iteration invariants", "anchors": ["tulip/abstract/discretization.py: _discretize_bi", "sym_adj_change", "reachable_within"]}
{"id": "C61", "title": "Closed-loop horizon recursion", "statement": "The closed-loop solver with a fixed horizon N >= 1 returns only states of P1 from which a controller can drive the system into P2 in exactly N steps against every disturbance, with all states in between in the transition set (P1 by default); the variant for use_all_horizon returns only states of P1 from which P2 can be reached within 1..N steps; is_feasible returns True only if this holds for every state of the source region. With exact polytope operations on convex sets the fixed-horizon solver also misses no such state. solve_feasible and is_feasible return for every N >= 1 with closed_loop, and without it unless use_all_horizon is given (ValueError). (N = 0 is rejected with closed_loop. The bounded-horizon helper, given a larger transition set, returns states outside of P1.)", "quantifier": "all horizons, sets and dynamics", "why_tests_cant": "induction on horizon", "anchors": ["tulip/abstract/feasible.py: _solve_closed_loop_fixed_horizon", "_underapproximate_attractor"]}
{"id": "C62", "title": "Locating the discrete state", "statement": "find_discrete_state returns the least index of a region containing the point, and None iff no region does.", "quantifier": "all partitions and points", "why_tests_cant": "all sizes", "anchors": ["tulip/abstract/find_controller.py: find_discrete_state"]}
{"id": "C63", "title": "Time data of hybrid systems is homogeneous", "statement": "Constructing a piecewise-affine or switched system succeeds exactly if its time data are acceptable (known semantics, no timestep for discrete time, otherwise a positive timestep), the labels and modes are consistent and, unless the time data are overwritten, there are subsystems and all direct subsystems agree with the time data. Afterwards the system has the time data, overwriting gives them to every nested subsystem, and no other object changes; so every nested subsystem has the time data of its parent (when not overwriting: if the piecewise-affine subsystems were homogeneous before; objects shared with another parent can make that parent inhomogeneous).", "quantifier": "all system trees", "why_tests_cant": "all nested systems", "anchors": ["tulip/hybrid.py: _push_time_data", "_check_time_consistency", "_check_time_data"]}
{"id": "C64", "title": "Parity-game attractor and solver", "statement": "The predecessor step adds exactly the nodes of the player with an edge into the set and the nodes whose only successor is in the set; the attractor loop ends and returns the least set closed under that step; from every node in it the player has a strategy such that every play visits the target; and it is exactly the set of such nodes if each opponent node has one successor. What the solver returns puts each node into exactly one of two sets; the solver raises an exception for a game with sinks and for nonempty games whose nodes are no numbers, and does not end if the node of highest color is a nonzero integer that is no color. (Counterexample: the solver awards a node of odd color with one edge, to itself, to player 0. With opponent nodes of several successors the attractor misses nodes: counterexample.)", "quantifier": "all game graphs", "why_tests_cant": "all graphs", "anchors": ["contrib/parity_games/solve_parity_game.py: ctrl_next, attractor, McNaughton", "tulip/transys/automata.py: ParityGame.max_color"]}
{"id": "C65", "title": "Functions on labelled states", "statement": "FunctionOnLabeledState is a finite map: f[x] returns the outputs of the last accepted add at x, inputs never added raise KeyError, calls of the wrong arity raise AssertionError and change nothing, and len counts the distinct inputs.", "quantifier": "all histories", "why_tests_cant": "history", "anchors": ["tulip/transys/mathfunc.py: FunctionOnLabeledState"]}
{"id": "C66", "title": "Syntax check rejects next-state variables where they are not allowed", "statement": "GRSpec.check_syntax raises iff some environment/system initial condition or environment liveness clause mentions a primed (X) variable, or an environment safety clause primes a system variable; collect_primed_vars returns exactly the variables occurring below X. (System liveness clauses are never checked: the code checks env_prog twice.)", "quantifier": "all specifications", "why_tests_cant": "must hold for every formula and nesting", "anchors": ["tulip/spec/form.py: GRSpec.check_syntax", "tulip/spec/transformation.py: collect_primed_vars"]}
{"id": "C67", "title": "Constant inference quotes exactly the undeclared names", "statement": "infer_constants(formula, vars) returns a formula that parses to the given one in which every name that is not a variable became a string constant, for formulas that are not a single name and contain no quoted constant; with a dictionary of domains it raises iff a variable name is a value of another variable. (A single name stays unquoted, and already quoted constants lose their quotes.)", "quantifier": "all formulas and variable tables", "why_tests_cant": "must hold for every formula text and every nesting", "anchors": ["tulip/spec/transformation.py: infer_constants", "_check_var_conflicts"]}
{"id": "C68", "title": "Refinement by a piecewise-affine system preserves propositions", "statement": "pwa_partition refines a proposition-preserving partition into one where each new region lies in one old region, with the same label, and in the domain of one subsystem, as recorded by the two returned maps; the adjacency relation of the result is symmetric and relates regions that are adjacent in space with equal or adjacent parents. It raises Exception if the system is not defined on the whole domain.", "quantifier": "all partitions and piecewise-affine systems with non-overlapping subsystem domains", "why_tests_cant": "all families of sets", "anchors": ["tulip/abstract/prop2partition.py: pwa_partition"]}
{"id": "C69", "title": "Grids refine partitions and preserve propositions", "statement": "For cells of positive size in two dimensions or more, add_grid terminates and refines a proposition-preserving partition of a domain with a bounding box into one where each new region lies in one old region, with the same label, and in one box of the grid; the boxes are products of intervals that tile the range of each dimension. (In one dimension it raises UnboundLocalError.)", "quantifier": "all partitions, bounding boxes, sizes and numbers of cells", "why_tests_cant": "unbounded numbers of dimensions and cells", "anchors": ["tulip/abstract/prop2partition.py: add_grid"]}
{"id": "C70", "title": "Dual-simulation discretization is sound", "statement": "In the abstraction computed by the dual-simulation discretization the given cells are kept, each further cell lies within a given cell and has its label, and a transition i -> j implies that from every state of cell i (up to a negligible set) the controller can drive the system to cell j through states of a given cell that contains cell i. (The procedure does not terminate when the part of a cell from which the target is reachable is disconnected; it raises IndexError for piecewise affine systems and, with remove_trans, when a new cell does not touch a neighbour.)", "quantifier": "all partitions, adjacency matrices, dynamics and parameters, all runs that end", "why_tests_cant": "fixpoint/iteration invariant over unboundedly many refinements", "anchors": ["tulip/abstract/discretization.py: _discretize_dual"]}
{"id": "C71", "title": "ppp2ts returns the transition system of the partition", "statement": "ppp2ts returns a transition system with one state per region, named s0, s1, ... in the order of the regions (also returned as the map from regions to states), with a transition from si to sj exactly when the adjacency matrix has an entry (i, j), without parallel edges, without initial states, and each state labeled with the propositions of its region.", "quantifier": "all adjacency matrices and lists of regions labeled with declared propositions", "why_tests_cant": "for all sizes; state names must be distinct for every index", "anchors": ["tulip/abstract/prop2partition.py: ppp2ts", "tulip/transys/labeled_graphs.py: prepend_with"]}
{"id": "C72", "title": "The abstraction of a switched system has exactly the feasible transitions of each mode", "statement": "After the modes have been discretized, discretize_switched succeeds (modes named by strings, a domain that is not negligible, a solver that does not raise) and returns a transition system whose states are the merged regions with their propositions, with a transition from i to j labeled by a mode iff i and j are within trans_length steps of adjacency and is_feasible holds for the active subsystem with the mode's original cell as transition set; then from each point of region i the controller can drive the mode's dynamics to region j inside that cell. (With the default integer mode names it raises ValueError.)", "quantifier": "all families of mode abstractions, merge orders, solvers and parameters", "why_tests_cant": "all partitions, modes, dynamics", "anchors": ["tulip/abstract/discretization.py: discretize_switched", "get_transitions", "merge_abstractions", "AbstractSwitched.ppp2pwa", "AbstractSwitched.ppp2sys"]}
{"id": "C73", "title": "Piecewise-affine systems are well defined", "statement": "If the constructor of a piecewise-affine system accepts subsystems then they have equal state, input and disturbance dimensions, their domains cover the domain and are mutually exclusive, up to negligible sets; conversely it rejects only systems for which one of these fails, if emptiness and full dimension are decided exactly.", "quantifier": "all lists of subsystems, domains and lawful polytope operations", "why_tests_cant": "all numbers and shapes of subdomains", "anchors": ["tulip/hybrid.py: PwaSysDyn.__init__"]}
{"id": "C74", "title": "Testing an input sequence", "statement": "is_seq_inside with N inputs returns True if and only if the states at times 1 to N-1 are in the first polytope and the state at time N is in the second; with no inputs it raises IndexError.", "quantifier": "all dynamics, initial points, input sequences and polytopes", "why_tests_cant": "all lengths", "anchors": ["tulip/abstract/find_controller.py: is_seq_inside"]}
{"id": "C75", "title": "Scaling preserves reachability", "statement": "For positive factors, there is a path of free cells between two cells of the scaled world iff there is one between the cells in whose blocks they lie.", "quantifier": "all grids, factors and pairs of cells", "why_tests_cant": "unbounded grids and paths", "anchors": ["tulip/gridworld.py: GridWorld.scale", "GridWorld.is_reachable"]}
{"id": "C76", "title": "Occupancy and states of a grid world", "statement": "mark_occupied and mark_empty change the cell denoted by the index and nothing else; is_empty tells whether the cell is free (with extend also outside of the grid); state() defines exactly the variables of the cells, 1 for the given cell and 0 for all others (or the two integer variables); unoccupied returns a world of the given size whose cells are all free (its prefix argument is ignored; a counterexample is proved).", "quantifier": "all grids, indices, offsets and prefixes", "why_tests_cant": "unbounded grids; names of variables must not collide", "anchors": ["tulip/gridworld.py: GridWorld.mark_occupied", "GridWorld.mark_empty", "GridWorld.is_empty", "GridWorld.state", "unoccupied"]}
{"id": "C77", "title": "Games against trolls", "statement": "With integer variables, add_trolls returns a specification whose environment variables are the positions of the trolls in their areas and whose system variables are the position of the agent. On traces with values in the declared domains, the assumption holds iff every troll starts in its center (or in a free cell of its area with start_anywhere), in each step stays or moves to an adjacent free cell within its radius (maximum norm), and returns to its center infinitely often; the guarantee holds iff the agent moves legally in the whole grid and never shares a cell with a troll from step 1 on. The list of moves of a troll has exactly one state for each cell of the grid within its radius, in coordinates of the grid. (Centers are free cells, radii not negative, and the prefixes of the agent and the trolls differ.)", "quantifier": "all grids, lists of trolls, prefixes, and infinite traces", "why_tests_cant": "infinite traces, any number of trolls and any grid", "anchors": ["tulip/gridworld.py: add_trolls", "tulip/gridworld.py: GridWorld.spec", "tulip/gridworld.py: GridWorld.dump_subworld"]}
{"id": "C78", "title": "Strategies read from gr1c JSON are the printed ones", "statement": "Reading the JSON text of a strategy printed by gr1c gives the graph with exactly the printed nodes, state of each node by variable name, initial nodes, and edges; other versions of the format raise ValueError; and the graph meets the assumptions under which it is converted to a Mealy machine.", "quantifier": "all strategies printed by the solver", "why_tests_cant": "unbounded graphs and variables", "anchors": ["tulip/interfaces/gr1c.py: load_aut_json"]}
{"id": "C79", "title": "gr1c interactive sessions send and read the right values", "statement": "The commands of an interactive session (winning, envnext, sysnexta, sysnextfeas) carry the values of the state and move in the order environment variables, then system variables, and the moves printed by gr1c are read back as dictionaries from variable names to the printed values (states with exactly the declared variables; for a state with additional keys positions are sent instead).", "quantifier": "all declarations, states, moves, goal modes and answers", "why_tests_cant": "unbounded numbers of variables, values, and moves", "anchors": ["tulip/interfaces/gr1c.py: GR1CSession"]}
{"id": "C80", "title": "synthesize asks the solver for exactly the specification plus the transition systems, and the returned machine satisfies it", "statement": "For every specification and every well-formed transition systems of the environment and of the system (names usable in formulas, nonempty sets of system actions), the specification passed to the solver assumes the given assumptions together with the executions of the environment (and with the starts of the system if initial values are quantified as \\A \\A) and guarantees the given guarantees together with the executions of the system; its options are the given ones. There is such a specification whenever the transition systems refer only to what they declare, have initial states unless these are ignored, and share no names with each other and with the given specification; it declares the given variables and those of the transition systems, each for its player. If the solver is correct on it, every infinite run of the returned machine whose environment keeps the assumptions satisfies the given guarantees and follows an execution of the system. None is returned exactly when the solver answers None; a machine with its initial state is returned when the solver returns a complete strategy (values in the domains in all nodes, edges between nodes, a fresh name for the initial state and, if dead ends are removed, a successor for each node and an initial node); an unknown or missing solver gives ValueError; transition systems with other options give AssertionError; is_realizable asks about the same specification.", "quantifier": "all specifications, transition systems, solvers that return winning strategies, infinite runs of the machine", "why_tests_cant": "Traces and runs are infinite and the transition systems, specifications and strategies are arbitrary; a test solves one specification with one solver and looks at one machine.", "anchors": ["tulip/synth.py:synthesize", "tulip/synth.py:_spec_plus_sys", "tulip/synth.py:_synthesize", "tulip/synth.py:_trim_strategy", "tulip/synth.py:is_realizable", "tulip/synth.py:_copy_options_from_ts"]}
{"id": "C81", "title": "synthesize_many composes all the transition systems synchronously", "statement": "For every specification and every dictionary of well-formed transition systems, when a set of names is given for ignore_init, the specification passed to the solver is the conjunction of the given one with those of all the transition systems, each in the variable with its name and on the side of its owner (it exists whenever the systems refer only to what they declare, have initial states unless ignored and share no names with each other and with the specification); if the solver is correct, every infinite run of the returned machine on which the assumptions hold and the systems of the environment are followed satisfies the guarantees and follows an execution of each system owned by the system; the machine has no dead ends. None is returned exactly when the solver answers None, a machine when it returns a complete strategy, and ValueError is raised for an unknown or missing solver. (With the default ignore_init=None a TypeError is raised.)", "quantifier": "all dictionaries of transition systems, specifications, sets of names to ignore, infinite runs", "why_tests_cant": "The number of transition systems is arbitrary, and the claim is about all infinite runs.", "anchors": ["tulip/synth.py:synthesize_many"]}
{"id": "C82", "title": "Dependent variables of a transition system are replaced faithfully", "statement": "For a transition system with integer states in which each atomic proposition labels some state, build_dependent_var_table gives for each proposition a formula over the state variable alone that is true exactly when the current state is labelled with it (map_ap_to_states gives exactly the labelled states). replace_dependent_vars with such a table (and in general with any table of formulas without string constants and alternative operator spellings) yields a specification whose assumption and guarantee hold on exactly the traces on which the old ones hold with each replaced variable set to the value of its formula, in which no replaced proposition occurs, and with the same declared variables; it succeeds whenever the replaced variables are Boolean or undeclared and the clauses are formulas over declared variables.", "quantifier": "all transition systems with integer states, all specifications whose clauses have no string constants and no alternative spellings, all tables, all set iteration orders, all infinite traces", "why_tests_cant": "The equivalence ranges over all infinite traces and all formulas; tests compare a few strings.", "anchors": ["tulip/synth.py:build_dependent_var_table", "tulip/synth.py:map_ap_to_states", "tulip/spec/form.py:replace_dependent_vars", "tulip/spec/transformation.py:sub_bool_with_subtree"]}
{"id": "C83", "title": "Products of a Büchi automaton and a transition system that are Büchi automata", "statement": "ba_ts_sync_prod(ba, ts) returns an automaton whose states are exactly the reachable product states, whose initial and accepting states are those of the product, and whose transitions are those of the product, each with the label of the entered transition-system state as letter; it accepts exactly the words along the transition-system paths that ba accepts, without the first label (for string states no one of which is a substring of another). OnTheFlyProductAutomaton(ba, ts): after the constructor and any history of add_successors calls for states present at the time of the call, it has exactly the initial product states and the successors of the called states, exactly the product transitions leaving the called states, and exactly the accepting ones among its states are accepting; add_successors raises UnboundLocalError, without effect, exactly when the state has no successor; add_all_states ends, adds only reachable states, and yields the whole product and its language if no transition-system state has two successors (provided no reachable product state is blocked).", "quantifier": "all labeled transition systems without edge labels, all automata, all queue orders, all histories of calls", "why_tests_cant": "exploration order, graph shapes and call histories are unbounded; language equality ranges over infinite words", "anchors": ["tulip/transys/products.py:ba_ts_sync_prod", "tulip/transys/products.py:OnTheFlyProductAutomaton", "tulip/transys/products.py:find_prod_succ"]}
{"id": "C84", "title": "The caches of a specification object never show", "statement": "Whatever sequence of edits of the specification, calls of parse, ast and str_to_int a GRSpec object has been through, the tree returned for a clause is the parse of that clause, and the integer text that str_to_int computes for a clause is the one a freshly built object with the same fields would compute from the present variables. (Excluded: histories in which a variable was removed, or the list of values of a string variable was changed, between a call that filled the cache and the call that reads it. There the stale entry shows, and a counterexample is proved for each.)", "quantifier": "all specifications, all clause orders and all finite histories of edits and calls", "why_tests_cant": "staleness depends on the order of arbitrarily many edits and calls", "anchors": ["tulip/spec/form.py:GRSpec.parse", "tulip/spec/form.py:GRSpec.ast", "tulip/spec/form.py:GRSpec.str_to_int"]}
{"id": "C85", "title": "The game handed to omega means the specification, and the strategy graph that comes back is faithful", "statement": "The automaton built for the omega solvers declares the same variables with the integer ranges that number their domains, and its initial and action formulas hold on the integer encoding of a play exactly when the clauses of the specification hold on the play; its Streett condition (some persistence formula holds from some step on, or every recurrence formula holds infinitely often) holds exactly when recurrence of every assumption clause implies recurrence of every guarantee clause. Integer plays within the declared ranges are exactly the encodings of plays of the specification, and the care set for enumeration has exactly the valuations within these ranges. The state-annotated graph built from the enumerated strategy has the same nodes, edges and initial nodes, and each node carries its annotation restricted to the declared variables.", "quantifier": "all specifications whose clauses parse and use declared variables, all traces, all strategy graphs", "why_tests_cant": "the equivalence ranges over all infinite plays and all specifications", "anchors": ["tulip/interfaces/omega.py:_grspec_to_automaton", "tulip/interfaces/omega.py:_strategy_to_state_annotated", "tulip/interfaces/omega.py:_int_bounds"]}
{"id": "C86", "title": "The input files for gr1c and slugs mean the specification", "statement": "translate(spec, 'gr1c') and translate(spec, 'slugs') return exactly for the specifications whose clauses use only the operators of the language, with primed variables where they may be (and, for gr1c, no variable with an empty list of values; for slugs, no string variables). The specification is unchanged. The file, split into its statements or sections, declares the variables of each player with their ranges (strings as indices), and a trace satisfies the clauses of each part (initially, at every step, infinitely often) exactly when the trace, with strings replaced by indices, satisfies what the file says in the section of that part. (Excluded: nested X, which is collapsed to one prime; a counterexample is proved. Variable names are letters, digits and underscores.)", "quantifier": "all specifications, all histories of the specification object, all infinite traces", "why_tests_cant": "the equivalence ranges over all formulas and all infinite traces", "anchors": ["tulip/spec/translation.py:translate", "tulip/spec/translation.py:_to_gr1c", "tulip/spec/translation.py:_to_slugs", "tulip/spec/translation.py:make_gr1c_nodes", "tulip/spec/translation.py:make_slugs_nodes"]}
{"id": "C87", "title": "The inputs for JTLV and Wring mean the specification", "statement": "translate(spec, 'jtlv') and translate(spec, 'wring') return exactly for the specifications whose clauses use only the operators of the language, with primed variables where they may be (for Wring: only Boolean variables, no comparisons). The specification is unchanged. Without comment lines, the two texts for JTLV hold on a trace (strings as indices, variables in the modules e and s) exactly when the assumption, respectively the guarantee, holds. The formula for Wring, read with * as conjunction, + as disjunction and x=1 for Boolean variables, holds exactly when the assumption implies the guarantee. (Excluded for Wring: clauses with bare numbers. Counterexamples: exclusive or raises KeyError, integer variables raise AttributeError.)", "quantifier": "all specifications, all histories of the specification object, all infinite traces", "why_tests_cant": "the equivalence ranges over all formulas and all infinite traces", "anchors": ["tulip/spec/translation.py:translate", "tulip/spec/translation.py:_to_jtlv", "tulip/spec/translation.py:_jtlv_str", "tulip/spec/translation.py:_to_wring", "tulip/spec/translation.py:make_jtlv_nodes", "tulip/spec/translation.py:make_wring_nodes"]}
{"id": "C88", "title": "Transition systems given as tuples, lines and cycles are the described ones", "statement": "tuple2fts with a prefix and without actions succeeds exactly when the initial states, the labeled states and the endpoints of the transitions are given states and no transition is given twice; the result has exactly the given states, initial states, propositions and transitions, and each state has the last label given for it (the empty set for None or no label). line_labeled_with(L, m) has the states s_m, s_{m+1}, … with the labels of L in order and transitions from each to the next; cycle_labeled_with adds the transition from the last to the first (for a non-empty L whose first label is not a set of two propositions; with actions, without a prefix, and add_initial_states, the functions fail or do nothing, as proved separately).", "quantifier": "all lists of states, initial states, propositions, labels and transitions, all prefixes, all iteration orders of sets", "why_tests_cant": "Tests build a few systems; which argument lists are accepted, and that nothing is lost or added for any of them, quantifies over all arguments.", "anchors": ["tulip/transys/transys.py:tuple2fts", "tulip/transys/transys.py:line_labeled_with", "tulip/transys/transys.py:cycle_labeled_with", "tulip/transys/transys.py:add_initial_states"]}
{"id": "C89", "title": "Accepting states are states after every history, and removing a state removes it everywhere", "statement": "After every sequence of calls on an automaton (adding and removing states, transitions, initial and accepting states, dead ends), whether or not calls raise, the accepting and the initial states are states and all transitions are between states. Removing an accepting state removes it from the states, the initial and the accepting states, and its transitions. (A state that is not accepting cannot be removed: ValueError, and the state is then no longer initial; remove_deadends raises when a dead end is not accepting.)", "quantifier": "all histories of calls, all states and labels, all enumeration orders of dead ends", "why_tests_cant": "The invariant must hold after arbitrary histories with failed calls in between.", "anchors": ["tulip/transys/automata.py:FiniteStateAutomaton.remove_node", "tulip/transys/labeled_graphs.py:States.remove", "tulip/transys/labeled_graphs.py:LabeledDiGraph.remove_deadends"]}
{"id": "C90", "title": "Rabin pairs contain states only, and adding or removing pairs changes acceptance as intended", "statement": "After every sequence of calls on a Rabin automaton the good and bad states of each pair are states. add(good, bad) succeeds exactly for states, and then accepts exactly the runs accepted before or satisfying the new pair; remove deletes the first pair with exactly these sets, or raises ValueError; add_states extends the pair at the index and no other, or raises IndexError (if the bad states are rejected the good ones stay added; states of a Rabin automaton cannot be removed at all).", "quantifier": "all histories of calls, all infinite runs, all indices including negative ones", "why_tests_cant": "Acceptance is a property of infinite runs, and the invariant ranges over all histories.", "anchors": ["tulip/transys/automata.py:RabinPairs", "tulip/transys/automata.py:RabinAutomaton"]}
{"id": "C91", "title": "A Büchi automaton given as a tuple is accepted exactly if it is one, and is built as given", "statement": "tuple2ba with a prefix and atomic propositions succeeds exactly when initial states, accepting states and endpoints are states and each guard is None or a set of the given propositions; the result has exactly these states, initial and accepting states, propositions and transitions, with None as the empty letter (with atomic_proposition_based=False and a set of letters it always raises).", "quantifier": "all tuples of states, propositions and transitions, all prefixes", "why_tests_cant": "The characterisation of accepted tuples and the absence of lost or extra transitions concern all inputs.", "anchors": ["tulip/transys/automata.py:tuple2ba"]}
{"id": "C92", "title": "The polytope of createLM contains exactly the initial states and inputs that respect all constraints for all disturbances", "statement": "For a linear system with shapes as the constructor of LtiSysDyn requires, a horizon N > 0 and polytopes of the dimension of the state, createLM returns L, M such that L [x(0)' u(0)' ... u(N-1)']' <= M holds exactly when, for all disturbances in the convex hull of the vertices of Wset, each state x(k) is in its polytope and each [u(k); x(k)] (or u(k)) is in Uset; at times outside disturbance_ind the disturbances are ignored (excluded: a Wset that is not full-dimensional or has not 2 to 10 vertices; a Uset that constrains the state together with an unbounded polytope of states).", "quantifier": "all systems, horizons, polytopes, initial states, input sequences and disturbance sequences", "why_tests_cant": "Soundness and completeness of the polytope concern all dimensions, horizons and all (infinitely many) disturbances.", "anchors": ["tulip/abstract/feasible.py:createLM", "tulip/abstract/feasible.py:get_max_extreme", "tulip/abstract/feasible.py:_block_diag2"]}
{"id": "C93", "title": "From the states that poly_to_poly returns, inputs chosen in advance lead to the target", "statement": "From each state of the projection of the polytope of createLM on the coordinates of the state, there are N inputs, allowed in the states where they are applied, that keep the state in the intermediate polytope and lead it in exactly N steps into the target polytope, whatever the disturbances; this is the assumption about poly_to_poly in the theorems on solve_feasible.", "quantifier": "all systems, horizons, polytopes, states and disturbances", "why_tests_cant": "Reachability for all disturbances is a quantification over an infinite set.", "anchors": ["tulip/abstract/feasible.py:poly_to_poly", "tulip/abstract/feasible.py:createLM"]}
{"id": "C94", "title": "createLM refuses sets of disturbances with more than 10 vertices, and thin sets in several dimensions", "statement": "For a set of disturbances with more than 10 vertices get_max_extreme raises ValueError for every matrix and horizon; for a set that is not full-dimensional, in at least two dimensions and with a horizon of at least 2, createLM raises ValueError (in one dimension such a set is ignored, and with a Uset on the state an effect on the inputs alone is ignored: both are shown by counterexamples).", "quantifier": "all systems, horizons and polytopes", "why_tests_cant": "That no such system is handled is a statement about all systems, and tests use sets with few vertices.", "anchors": ["tulip/abstract/feasible.py:createLM", "tulip/abstract/feasible.py:get_max_extreme"]}
{"id": "C95", "title": "The inputs that get_input returns implement the transition", "statement": "If get_input returns inputs, then the transition is in the transition system (if one is given), and, without closed_loop, whatever disturbances occur, these inputs are allowed, keep the states before the last one in the set where they must stay (the original region if the abstraction is not conservative and knows it, otherwise the first region or the convex hull of its polytopes), and lead to the last region in N steps. With closed_loop the first input is allowed and whatever disturbance follows, a controller that observes the states can still reach the last region in the rest of the horizon.", "quantifier": "all systems with matching shapes, abstractions, states, pairs of regions, cost arrays and norms, and all disturbances; for every solver that returns feasible optimal solutions", "why_tests_cant": "Tests apply the inputs to a few states with a few disturbances; the claim is about all of them.", "anchors": ["tulip/abstract/find_controller.py:get_input", "tulip/abstract/find_controller.py:get_input_helper"]}
{"id": "C96", "title": "get_input finds inputs whenever some exist", "statement": "For the norms 1 and infinity and bounded inputs, if some inputs lead to a polytope of the last region whatever the disturbances (with closed_loop: if a controller that observes the states can do so, for constraints that do not involve the states and when 0 is a possible disturbance), then get_input returns inputs and does not raise; this requires mid_weight to be positive or the last region to be a single polytope (otherwise get_input never succeeds when R, r, Q are not all None, which is a theorem too).", "quantifier": "all systems, abstractions, states and pairs of regions; for every solver that finds an optimal solution of each feasible bounded linear program", "why_tests_cant": "A test shows success for one state; the claim is that no reachable transition fails.", "anchors": ["tulip/abstract/find_controller.py:get_input", "tulip/abstract/find_controller.py:get_input_helper"]}
{"id": "C97", "title": "The cost that get_input minimises", "statement": "Among all inputs that lead to the last region, those that get_input returns minimise |Rx| + |Qu| + r'x with the arrays R and r as they are after the call, where x is the sequence of states for ord=2 and the response to the inputs from the state 0 for the norms 1 and infinity; for a region with several polytopes polytope number i is tried with i+1 times the weight added to the last block of R. The caller's R gets the weight added once per polytope, and r the negated weighted center if the region is a polytope. (This is not the documented cost: three counterexamples show that the initial state is ignored, that the term of mid_weight is not the distance from the center, and that the order of the polytopes matters.)", "quantifier": "all systems, abstractions, states, cost arrays and all alternative inputs", "why_tests_cant": "Optimality compares with every alternative input; tests compare with none.", "anchors": ["tulip/abstract/find_controller.py:get_input", "tulip/abstract/find_controller.py:get_input_helper"]}
{"id": "C98", "title": "LtiSysDyn accepts exactly the arguments that describe a linear system", "statement": "The constructor of LtiSysDyn returns an object if and only if A is a square two-dimensional array, B (if given) has as many rows and Uset a dimension that fits the inputs or the inputs and states, E and K (if given) have as many rows, K is a column, Wset fits E, the domain has the dimension of the states, and the time data are valid; then E and K default to zero, Wset is ignored without E, and a system with inputs and sets has all shapes that createLM and get_input rely on. Without A, which is optional, the constructor never succeeds; PwaSysDyn.from_lti and SwitchedSysDyn.from_lti never succeed unless A, B, E, K and the domain are all given.", "quantifier": "all arguments: None, lists, arrays of any number of dimensions and of all shapes, polytopes, other objects", "why_tests_cant": "The combinations of missing and ill-shaped arguments are unbounded; tests try a few.", "anchors": ["tulip/hybrid.py:LtiSysDyn", "tulip/hybrid.py:PwaSysDyn.from_lti", "tulip/hybrid.py:SwitchedSysDyn.from_lti", "tulip/hybrid.py:SwitchedSysDyn.from_pwa"]}
{"id": "C99", "title": "The PRISM file written for a Markov model describes this model", "statement": "The text that to_prism_file writes for a Markov chain or a Markov decision process (one initial state; every atomic proposition on some state; no quotes in names) is a program that a reader of PRISM accepts, and this program has the same type, the same number of states, the same initial state, a command for exactly each state and action that has a transition, labels that are true in exactly the states that have the atomic proposition, and as probability of going from a state to a state with an action the sum of those of the transitions, each rounded to the nearest four decimals; the program is exact if the probabilities have four decimals. Anything else is refused: TypeError for other systems, ValueError without states or without exactly one initial state, and no file is completed if a transition has no probability, leads outside the states or, in a decision process, has no known action.", "quantifier": "all Markov chains and decision processes: any states, actions, labels, rational probabilities and transitions", "why_tests_cant": "The text must mean the model for all models; tests compare a few files or check that the external tool reads them.", "anchors": ["tulip/interfaces/stormpy.py:to_prism_file"]}
{"id": "C100", "title": "Importing a Markov model keeps states, labels and transitions", "statement": "to_tulip_transys returns a system exactly if the model built from the file is a discrete-time Markov chain or a Markov decision process whose indices are in range and whose probabilities are between 0 and 1, and raises ValueError otherwise. The system then has one state for each state of the model, the same initial states, the same labels apart from the internal init and deadlock, and exactly the transitions of the model with their probabilities and (in a decision process) actions, each once.", "quantifier": "all models of the external tool: any number of states, labels, actions, transitions", "why_tests_cant": "Quantifies over all models.", "anchors": ["tulip/interfaces/stormpy.py:to_tulip_transys"]}
{"id": "C101", "title": "Model checking returns the probability for each state that the tool explores", "statement": "If the external tool builds the model that the exported file describes and computes satisfaction probabilities of it, then model_checking returns a table that has, for exactly the states of the system that the tool has built (the reachable ones), the probability from the corresponding state of the file, provided that each of them is the only state of the system with its labels; otherwise ValueError is raised.", "quantifier": "all Markov models, formulas, and tools that satisfy the contract", "why_tests_cant": "The correspondence of states is recovered from labels and must be right for all models; the tool is external.", "anchors": ["tulip/interfaces/stormpy.py:model_checking", "tulip/interfaces/stormpy.py:to_tulip_state", "tulip/interfaces/stormpy.py:to_tulip_labels", "tulip/interfaces/stormpy.py:_extract_probability"]}
{"id": "C102", "title": "A returned policy never contradicts the scheduler's transition probabilities", "statement": "When a policy is extracted, the policy has an action for exactly the states that the tool has built, and for each of them no transition with this action between two of these states has a probability that differs by more than a millionth from the one of the tool's action for the same two states; ValueError is raised exactly if for some choice all actions differ so. If all actions but the right one differ so, the policy has the right one.", "quantifier": "all decision processes, models of the tool, and schedulers", "why_tests_cant": "The correspondence of actions is guessed from probabilities, over all states; tests have few states.", "anchors": ["tulip/interfaces/stormpy.py:get_action_map", "tulip/interfaces/stormpy.py:to_tulip_action", "tulip/interfaces/stormpy.py:_extract_policy", "tulip/interfaces/stormpy.py:_update_possible_actions_with_transitions"]}
{"id": "C103", "title": "A strategy read from an XML or JSON file is the one the file describes", "statement": "For a document in the XML format of strategies in the default namespace, with text before the first node, load_aut_xml returns a graph with the declared variables and domains; the nodes with a state are the nodes of the document, each with the values and annotation of the first node element with its number; the edges are those to the listed successors. For a document without strategy it returns the specification, clause by clause, if no clause contains the text of an entity. A wrong root, a missing version, a version other than 1, missing declarations of variables or clauses, and nodes without a number that is an integer are rejected. The result meets the requirements of the construction of the machine. load_mealy returns the same strategy for both formats, in any case of letters of the name of the format.", "quantifier": "all strategies, variables with Boolean and integer domains, states, annotations and clauses", "why_tests_cant": "The documents and graphs are unbounded, and numbers of nodes can be repeated or refer to nodes that come later.", "anchors": ["tulip/interfaces/gr1c.py:load_aut_xml", "tulip/interfaces/gr1c.py:load_mealy", "tulip/interfaces/gr1c.py:_untaglist", "tulip/interfaces/gr1c.py:_untagdict"]}
{"id": "C104", "title": "Strategies of the solvers, as read by the interfaces, solve the caller's specification", "statement": "Suppose that each solver is right about what it is given: the text that the interface writes for gr1c and gr1py, the file in the structured format for slugs, the game for omega. Then the strategy that the interface returns is well formed and wins the specification of the caller (whose names have letters, digits and underscores only, whose string constants are compared with string variables, and that has no temporal operator below X, except for omega; for slugs without string variables and with non-negative ranges). So every run of the machine that synthesize returns for these solvers satisfies the guarantees if the assumptions hold. check_realizable says whether synthesize returns a strategy, and they raise the same exceptions (for omega if the action of the system is satisfiable). The calls return for clauses with declared variables, operators that the solver knows and primed variables where they may be, exactly if the options are ones that the solver supports. A missing solver is reported by an exception.", "quantifier": "all specifications, all solvers that are right about their inputs, all strategies that they return, all infinite runs, all orders of the parts of a specification", "why_tests_cant": "What matters is an interface's composition of translating, calling, and reading for every specification, for infinite runs; the solvers' answers are unbounded.", "anchors": ["tulip/interfaces/gr1c.py:synthesize", "tulip/interfaces/gr1c.py:check_realizable", "tulip/interfaces/gr1py.py:synthesize", "tulip/interfaces/gr1py.py:check_realizable", "tulip/interfaces/slugs.py:synthesize", "tulip/interfaces/slugs.py:check_realizable", "tulip/interfaces/omega.py:synthesize_enumerated_streett", "tulip/interfaces/omega.py:is_realizable", "tulip/synth.py:synthesize"]}
{"id": "C105", "title": "is_realizable and check_realizable decide realizability as documented", "statement": "Realizability is defined as the docstring of GRSpec explains it: environment and system choose values in turn; moore says whether the system sees the next values of the environment; the system keeps its safety clauses as long as the environment has kept its own, up to and including the current step, or up to the step before with plus_one; if the environment always does and meets its recurrence goals then the system meets its own; qinit says who chooses the initial values. If a solver decides this for the file or the game that it is given, then the check of its interface and is_realizable decide it for the specification of the caller together with the transition systems (strings and indices, declarations, all parts; for gr1c and gr1py with qinit \\A \\A there is an initial condition of the environment; for slugs qinit is \\A \\E). The checks do return for clauses with declared variables, operators that the solver knows and primed variables where they may be, exactly if the options are ones that the solver supports (omega supports all). A realizable specification with qinit \\A \\E has a causal strategy all of whose executions satisfy the formula of the specification.", "quantifier": "all specifications with names, strings and nesting as in C104, all options, all strategies of the system, all behaviours of the environment", "why_tests_cant": "It quantifies over strategies (functions on infinite plays) and over infinite plays.", "anchors": ["tulip/synth.py:is_realizable", "tulip/interfaces/gr1c.py:check_realizable", "tulip/interfaces/gr1py.py:check_realizable", "tulip/interfaces/slugs.py:check_realizable", "tulip/interfaces/omega.py:is_realizable", "tulip/spec/form.py:GRSpec"]}
{"id": "C106", "title": "A never claim is read as the Büchi automaton it describes", "statement": "For every never claim in the format of ltl2ba, the parser returns a graph whose edges are exactly the jumps of the claim in their order, whose guards, evaluated by Python, are true under exactly the valuations under which the guards of the claim are true, whose nodes are the states of the claim and whose symbols are its propositions; the initial nodes are the states with 'init' in their name, and the accepting ones those with 'accept' and without 'init'. If exactly the first label has 'init' in its name and accepting states begin with 'accept' and are not initial, the automaton accepts exactly the words that the claim accepts. A claim whose last tokens are missing is an error. (Claims with the statement skip, or with a state that is both initial and accepting, are excluded: there the automaton accepts other words than the claim. Propositions that are keywords of Python are excluded.)", "quantifier": "all never claims: any number of states, jumps and propositions, guards of any depth with the operators !, && and ||, and all infinite words", "why_tests_cant": "There are infinitely many claims and guards, and acceptance is about infinite words; a test reads a few outputs of the tool.", "anchors": ["tulip/interfaces/ltl2ba.py:Lexer", "tulip/interfaces/ltl2ba.py:Parser", "tulip/interfaces/ltl2ba.py:ltl2ba"]}
{"id": "C107", "title": "Generated grid worlds have the cells that were asked for", "statement": "Whatever the random numbers are, a world that random_world returns has the size and prefix that were asked for, and as many initial positions, goals and trolls as were asked for; these are different free cells; the number of walls is the product of the density and the number of cells, rounded to the nearest integer; and with ensure_feasible, any two of the initial positions and goals are connected by free cells. The call raises ValueError if the marked cells do not fit, and raises nothing if the walls fit too; without ensure_feasible it then returns. A call of narrow_passage returns a world with a left and a right zone of the documented width, connected exactly by the rows of the passage, with different initial positions in the left zone and different goals in the right zone, any two of which are connected by free cells; it raises ValueError exactly if the world is too small, a zone has too few cells, or the passage whose row is to be chosen is not narrower than the world. (With ensure_feasible and no timeout the call may never end; a row of the passage outside the world is not rejected and separates the zones.)", "quantifier": "all sizes, densities, numbers of cells, prefixes, all sequences of random numbers, all points where the timeout can occur", "why_tests_cant": "The random choices range over all sequences; a test sees a few seeds.", "anchors": ["tulip/gridworld.py:random_world", "tulip/gridworld.py:narrow_passage"]}
{"id": "C108", "title": "A random run of a Mealy machine is an execution", "statement": "A call of random_run that returns yields an execution of the machine of the given length: it starts at the given state or the first initial state, consecutive states are transitions, the outputs are those of the transitions, and the inputs that are printed too. Every execution of the machine is the result of some random choices. If no dead end is reachable within the given number of moves, then the call returns, and otherwise the only exception is the IndexError at a dead end. In a deterministic machine, guided_run with the printed inputs returns the same states and outputs. (interactive_run reads selections forever: nothing leaves its loop.)", "quantifier": "all Mealy machines, starting states, lengths and sequences of random choices", "why_tests_cant": "The choices range over all sequences.", "anchors": ["tulip/transys/machines.py:random_run", "tulip/transys/machines.py:interactive_run", "tulip/transys/machines.py:_interactive_run_step", "tulip/transys/machines.py:_select_transition"]}
{"id": "C109", "title": "The exported Promela process has the runs of the transition system", "statement": "For every finite transition system whose states and atomic propositions are named by Promela identifiers and in which each state has a transition without action labels, fts2promela returns a text that is a Promela file: it declares one Boolean variable for each atomic proposition, its process has the given name, and the infinite runs of the process are exactly the infinite runs of the system, with the variables equal to the label of the current state from the second state on (transitions with an action are dropped from the file, the label of the initial state is lost, and a system whose name was not set gives a file that cannot be read).", "quantifier": "all transition systems with identifier names, all sets of atomic propositions, all infinite runs", "why_tests_cant": "Whether every run of the process is a run of the system and the converse concerns infinitely many systems and infinite runs; a test compares one text with another and does not know what the process does.", "anchors": ["tulip/transys/export/graph2promela.py:fts2promela", "tulip/transys/labeled_graphs.py:Transitions.find", "tulip/transys/labeled_graphs.py:States.find"]}
{"id": "C110", "title": "Parallel abstraction of a switched system gives the sequential result, for every schedule", "statement": "If no worker raises, multiproc_discretize_switched neither raises nor deadlocks, whatever the order in which the workers finish and the parent reads their results (and in which sets are iterated): it returns after at most four events per mode. Its result is the abstraction of the switched system: the states are the regions of a common refinement of the partitions of the modes, with their labels, and there is a transition labeled with a mode iff the solver finds it feasible in that mode between regions within reach. The result equals that of discretize_switched up to the numbering of the states, if the disc_params of each mode are N, trans_length and possibly closed_loop=True, and if the answers of the solver depend only on the sets of points. (If discretize raises in a worker, or if disc_params has a key that get_transitions does not know, such as min_cell_volume, then the call waits forever; the numbers of the states depend on the schedule.)", "quantifier": "all numbers of modes, all partitions, all schedules of the workers and of the parent, all orders of iteration of sets, all solvers that do not raise", "why_tests_cant": "the order of arrival of results of processes is not controlled by a test, and a deadlock cannot be observed by a test that ends", "anchors": ["tulip/abstract/discretization.py:multiproc_discretize_switched", "tulip/abstract/discretization.py:multiproc_discretize", "tulip/abstract/discretization.py:multiproc_get_transitions", "tulip/abstract/discretization.py:discretize_switched"]}
{"id": "C111", "title": "The partition of a grid world has one region for each cell", "statement": "GridWorld.dump_ppartition(side_lengths, offset, nonbool) with positive side lengths returns, for every non-empty grid, a partition with exactly rows*columns regions. Each cell has exactly one region: its label is only the proposition of that cell, and its points are those of the cell's rectangle (row 0 on top, column 0 to the left, lower left corner of the grid at offset) up to a set of measure zero; the domain is the whole rectangle of the grid. A world without grid raises ValueError. (If nonbool is False the names of cells ignore the offset of the world, unlike those that indexing the world returns.)", "quantifier": "all grids with at least one cell, all positive side lengths, all offsets, both kinds of names; all implementations of the polytope operations that satisfy their contract", "why_tests_cant": "a unit test looks at one grid; the number of regions and their places depend on the size, on the offset and on the splitting that prop2part does cell by cell", "anchors": ["tulip/gridworld.py:GridWorld.dump_ppartition", "tulip/abstract/prop2partition.py:prop2part"]}
{"id": "C112", "title": "The picture of a grid world shows every cell where it is", "statement": "GridWorld.pretty returns a frame around one character for each cell, in the row and column of the cell, with and without show_grid and for every line_prefix: a star for a wall, I for an initial cell, G (or its number, with goal_order and at most ten goals) for another goal, for any other cell on the given path an arrow in the direction in which the path, repeated forever, first leaves the cell (a point if it never does), and a blank otherwise. It raises ValueError iff some cell has a value other than 0 and 1. Hence the picture determines the size, the walls, the initial cells and the goals that are not initial. (With goal_order and more than ten goals the rows are misaligned.)", "quantifier": "all worlds, paths, line prefixes and options", "why_tests_cant": "a unit test compares the pictures of a few worlds; that pictures are aligned and unambiguous concerns all worlds and paths", "anchors": ["tulip/gridworld.py:GridWorld.pretty"]}
{"id": "C113", "title": "The closed loop of abstraction, synthesis and continuous control meets the specification", "statement": "Take a linear or piecewise affine system, a proposition-preserving partition, the transition system that discretize(algorithm='bisimulation') returns, a specification, the machine that synthesize returns for them, and let an infinite run of the machine drive the continuous system, in each period by the inputs that get_input computes to the region that the machine names (closed_loop=False). If the assumptions of the specification hold along the run, then its guarantees hold; each period follows a transition of the abstraction and ends in the named region, all inputs are allowed, and the propositions that the machine shows true are true of the continuous state (up to a set of measure zero for those it shows false), whatever the disturbances.", "quantifier": "all systems, partitions, specifications, solvers that are correct, runs of the machine, initial states in the first region and disturbances in the allowed set", "why_tests_cant": "a simulation follows one run with some disturbances for finitely many steps; the claim joins five components (partition, abstraction, synthesis, machine, continuous control) for all infinite runs and disturbances", "anchors": ["tulip/abstract/discretization.py:discretize", "tulip/abstract/find_controller.py:get_input", "tulip/synth.py:synthesize", "tulip/abstract/prop2partition.py:prop2part"]}
{"id": "C114", "title": "Simulation of the controlled system", "statement": "In each interval of the simulation loop of simulate2d the controller reacts, get_input returns inputs to the region that the output loc names, and the simulated states are those of the system without disturbances, if the system has no constant term: they stay in the region (or its hull or original region) before the last, which is in the named region, and each interval starts where the one before it ended. If get_input returns, an interval succeeds iff the last state is in no region before the named one in the partition; otherwise AssertionError is raised. (The function simulate2d as it stands raises for all arguments, before its loop: TypeError, NameError or ValueError. With a constant term the loop simulates another system.)", "quantifier": "all controllers, systems, abstractions, sequences of inputs, initial states", "why_tests_cant": "the function cannot be tested at all, since it raises; what its loop does depends on the controller, the regions and the points at each interval", "anchors": ["tulip/abstract/plot.py:simulate2d", "tulip/abstract/plot.py:_simulate2d_ea", "tulip/abstract/plot.py:_simulate2d_ee", "tulip/abstract/plot.py:_simulate2d_aa"]}
{"id": "C115", "title": "The maps of an abstraction", "statement": "For a partition that preserves propositions and an LTI or PWA system that is defined on its domain, discretize (bisimulation, or, for an LTI system, dual simulation; not conservative) returns an abstraction whose maps are right: ts2ppp returns the region of each state of the transition system and raises ValueError for other values; ppp2orig returns a region of the given partition that contains the region and has its label; ppp2pwa returns a convex piece that contains it, with its label; ppp2sys returns the subsystem whose domain contains it. The set and the subsystem that ppp2trans returns are those for which each transition of the bisimulation was established: from almost every state of the source region the subsystem can be driven to the target region while the state is in this set. part2convex returns a proposition-preserving partition with the map to the given regions. verify_transitions does not raise if solve_feasible does not, judges each transition once, and each transition that it calls correct is. discretize raises ValueError for an unknown algorithm, an exception if the domain of a PWA system does not cover that of the partition, and otherwise returns when the loop ends (bisimulation). (If conservative, the maps are only defined for the first region, so the methods and verify_transitions raise IndexError for others.)", "quantifier": "all partitions, LTI and PWA systems, parameters of discretize, results of the geometric operations that meet their contracts, numbers of iterations, and regions, states and transitions of the result", "why_tests_cant": "The maps are composed from three refinements (by subsystems, into convex pieces, by the algorithm) of arbitrarily many regions; tests look at the number of regions of few examples", "anchors": ["tulip/abstract/discretization.py:discretize", "tulip/abstract/discretization.py:AbstractPwa.ts2ppp", "tulip/abstract/discretization.py:AbstractPwa.ppp2trans", "tulip/abstract/discretization.py:AbstractPwa.ppp2pwa", "tulip/abstract/discretization.py:AbstractPwa.ppp2sys", "tulip/abstract/discretization.py:AbstractPwa.ppp2orig", "tulip/abstract/discretization.py:AbstractPwa.verify_transitions", "tulip/abstract/prop2partition.py:part2convex"]}
{"id": "C116", "title": "The interface to Lily", "statement": "lily.synthesize calls Lily at most once, with a formula that means the given specification (for specifications over Boolean variables) and with a file that lists exactly the environment variables as inputs and the system variables as outputs; it returns None exactly if the file of the strategy says that the formula is not realizable. It raises TypeError, without calling Lily or writing a file, if a variable is not Boolean. It raises TypeError if a formula is given as text without the variables of both players, and another exception, before anything is written, if the text is not a formula, and if the executable or the file of the strategy is missing. The reader of a strategy returns exactly if the title lines are well-formed and name no state of the system. From a label, whatever text it is, all matches of name=0 and name=1 from left to right are read, so one that lists assignments is read as these. (If the formula is realizable, the returned machine has no states, whatever Lily wrote, because only the title lines of the strategy are read; and a strategy left by an earlier call is read if Lily fails.)", "quantifier": "all specifications (GR(1), LTL formulas, texts), declarations of variables, contents of the files before the call, effects of Lily on the files, and labels", "why_tests_cant": "The formula and the answer of Lily are arbitrary texts, and Lily is not installed where the tests run; what the strategy is turned into does not depend on any of the tested strategies", "anchors": ["tulip/interfaces/lily.py:synthesize", "tulip/interfaces/lily.py:_lily_strategy2moore", "tulip/interfaces/lily.py:_parse_label"]}
{"id": "C117", "title": "Operators that are spelled out", "statement": "parser.parse(formula, full_operators=True) reads a formula in which operators are spelled out, each by any of its names (next, always, eventually, until, stronguntil, weakuntil, unless, release, implies, equivalent, not, and, or) in any capitalization, or by its symbol, as the same formula as the one with symbols, if no word in the name of a variable is the name of an operator. Names are replaced only where they are whole words, all replacements can be understood as a single pass over the words, and a formula without names of operators is read as without the option. (Words inside of dotted names and quoted constants are replaced too.)", "quantifier": "all formulas, ways to spell their operators, and texts", "why_tests_cant": "The replacement is a sequence of thirteen substitutions over an arbitrary text, where the result of one could be changed by a later one; tests try a few formulas", "anchors": ["tulip/spec/parser.py:parse", "tulip/spec/parser.py:_replace_full_name_operators", "tulip/spec/ast.py:FULL_OPERATOR_NAMES"]}
{"id": "C118", "title": "Declarations of label types", "statement": "The labels of states and transitions that a graph declares at creation or by add_label_types are the ones of the given definitions, the last definition of a name deciding its type, and the last definition with a default deciding its default (a later definition without default keeps the earlier one); definitions without a name or without values raise KeyError. Every label of a state or transition, in every history of additions, was allowed by its type when it was added, also when types share a codomain; a value added to a codomain of one label is allowed from then on for every label declared with the same codomain; states whose declared default is not allowed cannot be added (is_consistent raises for every nonempty graph, and the flag deterministic has no effect).", "quantifier": "all lists of type definitions, codomains shared in any way, graphs, labels and histories of additions and changes of codomains", "why_tests_cant": "codomains are mutable and shared between labels and with the caller, so whether the labels are allowed depends on the whole history of declarations, additions and mutations", "anchors": ["tulip/transys/labeled_graphs.py:LabeledDiGraph.__init__", "tulip/transys/labeled_graphs.py:LabeledDiGraph.add_label_types", "tulip/transys/labeled_graphs.py:LabeledDiGraph._init_labeling", "tulip/transys/labeled_graphs.py:LabeledDiGraph.is_consistent"]}
{"id": "C119", "title": "Pictures of labeled graphs and files that save writes", "statement": "The DOT graph of a labeled graph has one node for each state, in order, with its text, declared labels and colors (a gradient runs from the color at the left, or else at the top, to the color at the right, or else at the bottom, and both of the latter must be given), one invisible node with an arrow for each initial state, and one edge for each transition with its declared and not hidden labels, provided that states have different texts and none is called like an invisible node; every graph whose labels have formats can be exported. The path and format of save are given by the extension of the file name or replaced by the given format (accepting states are not distinguished, tikz always raises, ValueError for an unknown direction and otherwise NameError, the picture itself is written to path.format while path gets the DOT source, and saving transition systems as Promela or Mealy machines as state charts raises).", "quantifier": "all labeled graphs, label formats, masks, colors, file names and formats", "why_tests_cant": "the export goes through two intermediate graphs in which equal names merge, so each state and transition must be traced through for every graph", "anchors": ["tulip/transys/export/graph2dot.py:_graph2dot", "tulip/transys/export/graph2dot.py:_states2dot_str", "tulip/transys/export/graph2dot.py:_form_edge_label", "tulip/transys/labeled_graphs.py:LabeledDiGraph.save", "tulip/graphics.py:networkx_to_graphviz"]}
{"id": "C120", "title": "State charts of Mealy machines", "statement": "mealy2scxml raises TypeError for every machine, because the set of initial states cannot be called (if that call is repaired to return the list, then the export succeeds exactly for machines with one initial state, and its tags are the initial state and then, for each state in order, all transitions that leave it, with labels and targets; the tags match, as XML requires, only if the machine has no transition, since each transition is closed twice).", "quantifier": "all Mealy machines with states and labels whose texts contain no angle brackets", "why_tests_cant": "whether the tags of the text match depends on every state and transition", "anchors": ["tulip/transys/export/machine2scxml.py:mealy2scxml", "tulip/transys/machines.py:MealyMachine._save"]}
{"id": "C121", "title": "Popping, Cartesian products and arithmetic of power sets", "statement": "MathSet.pop on a set with elements returns one of its elements and removes it and nothing else, whatever the random choices, and raises KeyError exactly on the empty set; calling it repeatedly returns every element exactly once and then raises KeyError; on a SubSet it keeps the result inside the superset. update and |= are union. contains_multiple says whether some item occurs twice. The factors of a CartesianProduct are removed by equality of their elements, one factor for each argument, with ValueError when none is left. p + q of two PowerSets contains exactly the sets inside the union of the base sets, p == q exactly when the same sets are members; other operands, a base set that is not a MathSet, and membership of strings raise TypeError. (Membership in a CartesianProduct always raises TypeError unless there is no factor or no component, where it is True; the documented assignment of a list to PowerSet.math_set raises.)", "quantifier": "all histories of sets, all random choices, all sequences of calls", "why_tests_cant": "random choices and unbounded histories", "anchors": ["tulip/transys/mathset.py: MathSet.pop", "MathSet.update", "MathSet.__ior__", "contains_multiple", "CartesianProduct", "PowerSet.__add__", "PowerSet.__eq__", "PowerSet.__setattr__"]}
{"id": "C122", "title": "Every call of a gr1c session gets the answer to its own question", "statement": "For a solver that prints the prompt when it starts and the answer followed by the prompt after each command, any sequence of iswinning / getindex / env_next / sys_nextfeas / sys_nexta / getvars / numgoals / reset / close calls on a GR1CSession, exceptions included: no call waits for ever; each question returns exactly what the specification in the file of the solver that runs at that time says about the arguments of that call, and changes nothing; a state or move that lacks a declared variable raises KeyError, a goal that is not one of the goals raises ValueError, and a question while no solver runs raises AttributeError, all without upsetting later answers; reset starts the solver on the given file, or else the previous one, and returns False without a solver when the old one fails to exit cleanly; close ends the solver. (States with variables that are not declared are excluded, see C79. After a failed reset the file is forgotten, and reset() then returns True although nothing runs.)", "quantifier": "all sequences of calls with all arguments and exit codes, all solvers that follow the protocol, all files", "why_tests_cant": "the unread output must stay in step with the commands over unbounded histories with exceptions", "anchors": ["tulip/interfaces/gr1c.py: GR1CSession.__init__", "GR1CSession.iswinning", "GR1CSession.getindex", "GR1CSession.env_next", "GR1CSession.sys_nextfeas", "GR1CSession.sys_nexta", "GR1CSession.getvars", "GR1CSession.numgoals", "GR1CSession.reset", "GR1CSession.close"]}
{"id": "C123", "title": "The file of a saved function on states", "statement": "FunctionOnLabeledState.save(path) writes a JSON list with one object for each input at which add was accepted, in the order in which the inputs were added first. The object of an input has the state, the labels, the other inputs and the outputs, by name, of the last accepted call of add at this input; earlier calls at the same input leave no trace. If a transition system is passed, the labels are those of its states instead. (When some label is a set, as the propositions of a transition system are, save raises TypeError and the earlier contents of the file are lost.) The constructor takes a single key as well as a list, and a list of input keys without 'state', or a single key that does not contain that text, raises ValueError. (A single key that merely contains the text 'state' is accepted, with its first place as the position of the state, so for instance every later use of 'mystate' raises IndexError.)", "quantifier": "all numbers and names of keys, all values, all histories of accepted and rejected calls of add, all labelings of transition systems", "why_tests_cant": "which call determines an object depends on the whole history of calls, and the order of objects on all of them", "anchors": ["tulip/transys/mathfunc.py:LabeledStateInputOutputPair.to_json", "tulip/transys/mathfunc.py:FunctionOnLabeledState.__init__", "tulip/transys/mathfunc.py:FunctionOnLabeledState.add", "tulip/transys/mathfunc.py:FunctionOnLabeledState.save"]}
{"id": "C124", "title": "Every path of the abstraction can be followed by the linear system, whatever the disturbances", "statement": "For an LTI or piecewise affine system with bounded disturbances, discretize with the bisimulation algorithm (not conservative, horizon N > 0) returns an abstraction such that for each transition, from almost each state of the source region, the equations x(t+1) = A x + B u + E d + K of the active subsystem lead to the target region whatever the disturbances: in exactly N steps by inputs that depend on the states, within 1..N steps for use_all_horizon, or in N steps by inputs chosen in advance without closed_loop; the inputs are allowed and the states in between are in the set that ppp2trans returns. Therefore (without use_all_horizon) every infinite path of the transition system can be followed: there are inputs that depend on time and state such that the state is in the n-th region of the path after n N steps, as long as it avoids some negligible sets.", "quantifier": "all systems, partitions, parameters, abstractions returned, transitions, infinite paths, initial states and disturbances", "why_tests_cant": "Infinitely many paths, states and disturbance sequences; the claim joins four modules.", "anchors": ["tulip/abstract/discretization.py:discretize", "tulip/abstract/discretization.py:_discretize_bi", "tulip/abstract/feasible.py:solve_feasible", "tulip/abstract/feasible.py:poly_to_poly", "tulip/abstract/feasible.py:createLM"]}
{"id": "C125", "title": "A GR(1) specification written to a file and read back means the same", "statement": "For a GRSpec with Boolean and integer variables (names without the separators of the file format, no variable on both sides) and clauses that parse and contain neither comment nor section separator, dumps() returns a text, with or without time stamp, such that LTL.loads of it, or LTL.load of an open file with it, gives the same variables with the same domains in the same order and the formula str(spec), which parses and holds on exactly the traces that satisfy the GR(1) implication of the specification; writing changes nothing of the object but its attribute formula (which is recomputed, so a formula left over from before the clauses were edited is never written). sub_values(values) returns if and only if every variable of the cached formulas is given a string; every result that is not a single variable has no variable left and holds on the same traces as the original among those where the variables have the given values. (Excluded: string-valued variables, whose elements are read with a space; LTL.load of a file name on Python 3.11 and later, which raises ValueError.)", "quantifier": "all specifications of this kind, all time stamps, all traces, all caches and dictionaries of values", "why_tests_cant": "the claim ranges over all specifications and over infinite traces; a test reads back a few files and compares texts", "anchors": ["tulip/spec/form.py:GRSpec.dumps", "tulip/spec/form.py:GRSpec.__str__", "tulip/spec/form.py:GRSpec.sub_values", "tulip/spec/form.py:LTL.load", "tulip/spec/form.py:LTL.loads"]}
{"id": "C126", "title": "Graphs of syntax trees and the substitutions on them", "statement": "For every formula whose node objects form a tree in memory (every formula has such a memory, and the parser creates one), converting the recursive syntax tree to a graph of node objects and back gives the same formula; and each substitution on the graph (of formulas for variables, of values for variables, of indices for string constants, of quoted constants for undeclared names), followed by the conversion back, gives the result of the substitution on the formula, raises the same exception, replaces all occurrences at once, and creates new objects without changing those of the given formula (if the objects do not form a tree, because an object is shared, then the substitution of formulas raises an AssertionError).", "quantifier": "all formulas, all memories in which they are trees of objects, all tables of formulas, values, domains and declared variables", "why_tests_cant": "formulas, shapes of the object graph and tables are unbounded", "anchors": ["tulip/spec/transformation.py:Tree", "tulip/spec/transformation.py:Tree.from_recursive_ast", "tulip/spec/transformation.py:Tree.to_recursive_ast", "tulip/spec/transformation.py:Tree.add_subtree", "tulip/spec/transformation.py:sub_values", "tulip/spec/transformation.py:sub_constants", "tulip/spec/transformation.py:sub_bool_with_subtree", "tulip/spec/transformation.py:pair_node_to_var", "tulip/spec/transformation.py:infer_constants"]}
{"id": "C127", "title": "Transitions drawn over a partition and the matrix of a strategy", "statement": "If the states of the transitions with the desired label are all listed, then plot_ts_on_partition draws one arrow for each of them, in order, from the region of the first state to the region of the second one; with only_adjacent exactly those between regions that are not adjacent are left out. A transition with a state that is not listed is a KeyError, and without a matrix of adjacency only_adjacent is a TypeError if there is a transition to draw. The matrix of project_strategy_on_partition has a one at (i, j) exactly if a transition of the machine joins states with the labels loc i and loc j (negative locations count from the end), and it is empty for each machine that synthesis returns, because its states have no labels.", "quantifier": "All partitions, transition systems, lists of states without repetition, labels, machines and strategies.", "why_tests_cant": "The drawing depends on an arbitrary transition system, an arbitrary order of its states and an arbitrary matrix; tests draw one example and compare nothing.", "anchors": ["tulip/abstract/plot.py:plot_ts_on_partition", "tulip/abstract/plot.py:project_strategy_on_partition", "tulip/synth.py:strategy2mealy"]}
{"id": "C128", "title": "Grid points over a box and the layout of axes", "statement": "The columns of dom2vec(domain, resolution) are exactly the points whose i-th coordinate is one of the evenly spaced points in the i-th interval (both ends included, or the lower end for one point): as many as the product of the resolutions, all in the box, and each once unless an interval is a single number. Intervals without resolution are ignored; a last number without partner that has a resolution is a TypeError, a negative resolution and an empty grid are ValueErrors. newax returns one axes for each place of the layout, in order, as a list or as the rows of the layout (for one place the axes itself, but a tuple with it in matrix mode); with separate dimensions there are as many axes as dimensions, and any dimension other than two, or more of them than places, is a ValueError.", "quantifier": "All boxes with rational bounds of any number of dimensions, all resolutions, all layouts.", "why_tests_cant": "The number of dimensions and of points is arbitrary; tests fix one.", "anchors": ["tulip/graphics.py:dom2vec", "tulip/graphics.py:newax", "tulip/graphics.py:_grouper"]}
{"id": "C129", "title": "The version of the solver gr1c is read from its output, and decides whether it is used", "statement": "get_version returns three numbers if and only if 'gr1c -V' succeeds and the second word that it prints is these three integers with dots between them; in particular a name followed by 'a.b.c' and any further output gives (a, b, c). Without an executable it raises OSError, if the call fails CalledProcessError, if there is no second word IndexError, and if the second word is not a version ValueError. check_gr1c returns False without an executable, and for an executable with version a.b.c it returns whether the version is at least 0.9.0; it raises exceptions for failing calls and unreadable outputs. check_syntax returns whether the call of gr1c with the given text exits with code 0, and raises an exception if gr1c is missing or older.", "quantifier": "all outputs and exit codes of the executable, all versions and all specification texts", "why_tests_cant": "There are infinitely many outputs and versions; tests see the one version that is installed.", "anchors": ["tulip/interfaces/gr1c.py:get_version", "tulip/interfaces/gr1c.py:check_gr1c", "tulip/interfaces/gr1c.py:_assert_gr1c", "tulip/interfaces/gr1c.py:check_syntax"]}
{"id": "C130", "title": "pretty shows the whole specification", "statement": "GRSpec.pretty returns a text whose lines are: the declared variables of the environment and of the system, one a line with its domain, or (none); then, for assumption and guarantee, the conjuncts of each of the parts initial, safety and liveness, one a line in the stored order, under the heading of that part and with the temporal operator of that part; a part without conjuncts is not shown. Specifications that are shown by the same text have the same variables and the same conjuncts in each of the six parts. (The options moore, plus_one and qinit are not shown.)", "quantifier": "all specifications; for the second sentence those without line breaks in conjuncts, names and domains and without tabs in names", "why_tests_cant": "A test compares one text; that no conjunct is lost or moved to another part holds for all lists of conjuncts.", "anchors": ["tulip/spec/form.py:GRSpec.pretty"]}
{"id": "C131", "title": "Files with pictures of the modes of a switched system", "statement": "For an abstraction of a switched system that has a merged partition and a transition system, plot_mode_partitions writes two files for each mode: merged_<mode>.pdf shows the merged partition with arrows for the transitions labeled with that mode, and part_<mode>.pdf shows the partition of that mode, with its transition system if show_ts is set; no other file is changed. For an abstraction without a merged partition and with at least one mode it raises AssertionError and writes nothing, and a mode without partition or transition system raises AttributeError.", "quantifier": "all abstractions of switched systems, all options, all modes with distinct names, all files that exist before", "why_tests_cant": "Pictures and files are matched by position in two lists; a test with one mode cannot see a mix-up of modes.", "anchors": ["tulip/abstract/discretization.py:plot_mode_partitions", "tulip/abstract/discretization.py:AbstractSwitched.plot", "tulip/abstract/discretization.py:_plot_abstraction", "tulip/abstract/plot.py:plot_ts_on_partition"]}
{"id": "C132", "title": "Drawing of a grid world", "statement": "GridWorld.plot shows an image that is white at free cells and black at occupied ones; the letters I, G and E (symbols if the font size is zero) exactly at the initial cells, at the goals and at the centers of trolls, with the column as x and the row as y; the lines between cells if and only if the grid is asked for; and a gray square over exactly those free cells that are at most radius rows and columns from the center of a troll. A troll whose center is outside of the world raises ValueError, an empty world raises AttributeError.", "quantifier": "all worlds with at least one row and one column, all lists of trolls, all font sizes", "why_tests_cant": "The extent of a troll is clipped at each side of the world; tests of drawings check one picture at most.", "anchors": ["tulip/gridworld.py:GridWorld.plot"]}
{"id": "C133", "title": "Animations of paths", "statement": "animate_paths with at most seven paths, none shorter than the first, makes one frame for each position of the first path; in frame t the marker of each robot is at path[t] (column as x, row as y, moved by at most half the jitter) and its trail runs through path[0..t]. Without a prefix the frames are an animation over the drawing of the world. With a prefix they are written to files whose names sort in the order of time and are distinct; the world is not drawn in these files. A path shorter than the first one, or an eighth path, raises IndexError.", "quantifier": "all lists of paths, all jitters, all random numbers between zero and one, all prefixes", "why_tests_cant": "Numbers in names are padded to the width of the last one; order and completeness hold for all lengths, tests of animations look at none.", "anchors": ["tulip/gridworld.py:animate_paths"]}
{"id": "C134", "title": "Reading automata printed by lbt or scheck", "statement": "Let a text list a generalized Büchi automaton in the format of LBT: the number of states, the number of acceptance sets, and for each state its name, whether it is initial, its acceptance sets, -1, its transitions (successor and gate in prefix notation), and -1, with any blanks and line ends between the words. If there is at least one state, the names are distinct, and every state has at least one transition, then readlbt returns an automaton with the declared number of acceptance sets, in which each listed state has the listed initial flag and acceptance sets, the only other nodes are successors that the text does not list as states, which get no attributes, and there is an edge from u to v exactly if u lists a transition to v; its gate is that of the last such transition. dumpdot then raises KeyError if some successor is not a listed state, and otherwise writes a line for each state and each edge. The words of gates that LBT prints (t, f, !, |, &, ^, i, e, p0, p1, ...) are covered. If a state lists two transitions to the same successor, the first gate is lost; if a state lists no transition, what follows is misread (both shown by example).", "quantifier": "all automata in the format, of any size, and all layouts of their texts with blanks and line ends", "why_tests_cant": "The texts are unbounded in the number of states, transitions, words of gates, and layout.", "anchors": ["contrib/readlbt.py:readlbt", "contrib/readlbt.py:_split2", "contrib/readlbt.py:GBAutomaton.dumpdot"]}
{"id": "C135", "title": "Translating SPIN formulas for ltl2dstar", "statement": "Let a text be a formula in the syntax of SPIN (names that do not start with X, !, X, [], <>, U, &&, ||, ->, <->, parentheses, any white space, with white space before U), where all binary operators group to the right. Then spin_to_dstar, when no earlier call has failed, returns the formula in the prefix notation of ltl2dstar, and leaves nothing behind, so that the next call works in the same way. If no name is one of the words that ltl2dstar reads as operators (i, e, G, F, U, X), then two formulas with the same translation are the same formula; with such names the translation is ambiguous (shown by example). The precedence of SPIN is not observed: a && b -> c is read as a && (b -> c) (shown by example). If a call fails on a text that starts with a name, then every later call in the same process fails, whatever its text.", "quantifier": "all formulas and layouts of their texts; all texts of the failing call; all sequences of later calls", "why_tests_cant": "Formulas are of unbounded size, and the failure is a property of the history of calls.", "anchors": ["contrib/spin2dstar.py:spin_to_dstar", "contrib/spin2dstar.py:spin_to_AST", "contrib/spin2dstar.py:AST.to_dstar"]}
{"id": "C136", "title": "Exported C tables follow the controller", "statement": "mealyexport (contrib/fmu) writes tables such that the C functions init_fsm and fsm_transition, called with integers that encode the inputs (for each port the place of the value, modulo the number of values), follow every path of a deterministic controller from the exported initial state: each call returns the location that the edge outputs and enters the state that the edge enters. The export returns for every such controller. Where the controller has no edge for the input, fsm_transition silently returns location 0 and enters the first state. The export removes the initial state from the controller that it is given and changes nothing else: a second export of a controller with one initial state raises KeyError.", "quantifier": "all deterministic Mealy machines whose labels give every input port one of its values and an integer location, all initial states, all paths of the machine of any length, all arrays of nonnegative integers that encode the inputs", "why_tests_cant": "The encoding has a mixed radix over any number of ports, and the claim is about every path: a test runs one controller on one word, and the test of the C code in the repository uses one Boolean input.", "anchors": ["contrib/fmu/ctrlexport.py:mealyexport", "contrib/fmu/sources/FSM.c:fsm_transition"]}
{"id": "C137", "title": "Export of controllers to Matlab", "statement": "export_mealy (contrib/matlabsim) returns, for a controller in which every state but Sinit is entered by an edge and no edge enters Sinit: the ports with their values; every state but Sinit once, for a continuous system with the location that the edges into it output; exactly one record for each edge that does not leave Sinit, with its ends and the printed values of all its ports; and initial transitions that are exactly the second edges of the paths from Sinit, each with the location that the first edge outputs. The claims about locations need that the edges into a state agree on the location: otherwise the location of the last edge is exported. A controller with another state that no edge enters is rejected with AssertionError.", "quantifier": "all Mealy machines whose labels give a value to every port and to loc, discrete and continuous, with any number of states, edges, parallel edges and initial states", "why_tests_cant": "A test compares one exported controller; the initial transitions and the locations depend on all edges into and out of each successor of Sinit.", "anchors": ["contrib/matlabsim/tomatlab.py:export_mealy"]}
{"id": "C138", "title": "Schedule and timing of an exported hybrid controller", "statement": "A controller exported to C reads the discrete inputs as zeros at its start and then only at ticks whose number is a multiple of the horizon; after any number of ticks for which the tables are defined, its goal is the location output by the last transition, its region is the location output by the transition before it, and the continuous input was computed from the last measurement with a horizon that ends at the next multiple. If the discrete inputs read encode a path of the deterministic controller that was exported, the goals are the locations along this path. For every history of step requests, the n-th tick happens in a step that ends within the tolerance of n periods after an earlier step ended there, and the second step that ends there makes the tick; an accepted step moves the last successful time to its end; and a step is discarded exactly if it would end later than the next tick. A master that makes maximal steps is never discarded and makes a tick at each multiple of the period.", "quantifier": "all tables, horizons, measurements and sequences of ticks; all deterministic controllers with integer locations; all periods, tolerances and histories of step requests", "why_tests_cant": "The schedule is a relation between the number of ticks so far, the last two transitions and the horizon, over unboundedly long executions and arbitrary masters.", "anchors": ["contrib/fmu/sources/TuLiPControl.c:transition_function", "contrib/fmu/sources/TuLiPControl.c:init_controller", "contrib/fmu/sources/TuLiPFMU.c:fmiDoStep", "contrib/fmu/sources/TuLiPFMU.c:fmiGetMaxStepSize"]}
{"id": "C139", "title": "Optimization problem and receding horizon of an exported controller", "statement": "The problem that an exported controller gives to the solver ECOS (sparse matrices, bounds, cone, objective) is, for every dimension and horizon, exactly: find a trajectory of x' = A x + B u from the current state that stays in the current region with inputs within their bounds and is in the goal region after the remaining steps, such that the sum of the squares of the inputs and of the distance of the last state from the center of the goal is minimal; the input applied is the first one of this trajectory. Products of polytopes, boxes and exported polytopes have the points they should, and their centers are those of the factors and the middle of the bounds. If the first problem of a move has a solution and the solver returns a feasible point whenever there is one, then along the closed loop all later problems have solutions, the state stays in the region, inputs stay within bounds and the goal is reached after exactly the given number of steps. isInside of polytope.c does not decide membership (counterexample).", "quantifier": "all numbers of states, inputs, inequalities and steps, all matrices, polytopes and states over the rationals, all solutions of the solver and all closed-loop executions", "why_tests_cant": "The matrices are assembled by index arithmetic over five dimensions, and feasibility along the loop concerns all executions of the system with any solver.", "anchors": ["contrib/fmu/sources/TuLiPControl.c:get_input_helper", "contrib/fmu/sources/TuLiPControl.c:compute_control", "contrib/fmu/sources/polytope.c:cartesian_prod", "contrib/fmu/sources/polytope.c:from_box", "contrib/fmu/sources/polytope.c:isInside", "contrib/fmu/poly2str.py:polytope2str"]}
{"id": "C140", "title": "An exported hybrid controller in closed loop visits the locations of the strategy", "statement": "Let a controller be exported with the tables of a strategy, a linear system and its regions, such that from every point of a region that the strategy leaves the system can reach the next one with a move of N steps within the bounds. If the solver returns a feasible point whenever there is one, and the measurement at each tick is the state that the system reaches with the input computed before, then at every tick k, forever, the state is in the location number k / N of those that the strategy outputs (the first being the initial region), and the input applied is within its bounds. The system can make a move from a state exactly if the abstraction finds that it can be driven to the next region in N steps through states of the cell; for an abstraction that is not conservative (the default) states in between may be outside of the cell, and then the exported controller may have no solution for a transition of the abstraction (counterexample).", "quantifier": "all tables, sequences of discrete inputs, linear systems, regions, solvers that meet the contract and numbers of ticks", "why_tests_cant": "the runs are infinite, the states are continuous and the solver may return any feasible point", "anchors": ["contrib/fmu/sources/TuLiPControl.c", "contrib/fmu/sources/FSM.c", "contrib/fmu/sources/TuLiPFMU.c", "contrib/fmu/exportFMU.py"]}
{"id": "C141", "title": "An exported unit uses the values that were set last, and returns the inputs computed last", "statement": "The variables that exportXML writes have different value references, which are those by which the exported unit stores and returns values. After the initialization and any calls that set variables or request steps, a tick of the controller reads, for each variable y_i and each discrete input in modelDescription.xml, the value that the master set last before the tick; values set with other references are ignored; and the value of u_i is the i-th input that the controller computed at the last tick, or at the initialization, whatever has been set since. The names of variables can clash: an input of the controller may be called u0.", "quantifier": "all dimensions and names of inputs, all tables and controllers, all histories of calls of the master (any number and order of settings and step requests, with any references), all contents of the memory after allocation", "why_tests_cant": "the order of settings and requests is chosen by the master, and a wrong offset shows only for certain dimensions", "anchors": ["contrib/fmu/exportFMU.py:exportXML", "contrib/fmu/sources/TuLiPFMU.c:fmiSetReal", "contrib/fmu/sources/TuLiPFMU.c:fmiSetInteger", "contrib/fmu/sources/TuLiPFMU.c:fmiGetReal", "contrib/fmu/sources/TuLiPFMU.c:fmiDoStep", "contrib/fmu/sources/TuLiPFMU.c:fmiInitializeSlave", "contrib/fmu/sources/TuLiPControl.c:input_function", "contrib/fmu/sources/TuLiPControl.c:output_function"]}
{"id": "C142", "title": "Reading the automata that ltl2dstar prints", "statement": "For every text in the format of ltl2dstar of a deterministic Rabin or Streett automaton, with any space between words, empty lines and comments, readdstar returns an automaton with the same kind, start state, propositions and states. There is an edge from q to r exactly if the automaton goes from q to r with some subset of the propositions. The list of subsets of the edge has exactly those with which it does, and its formula is the disjunction of their descriptions, so that for every state and every valuation the formula of exactly one edge holds. The acceptance pairs have the states with the signs + and - in their signatures; a pair in no signature is None. If the propositions are distinct, the returned automaton has exactly one run on each infinite word of subsets, the run of the given automaton, and accepts the same words, under the Rabin and under the Streett condition.", "quantifier": "all deterministic automata with any numbers of states, propositions and acceptance pairs, and all their texts", "why_tests_cant": "the subset of a transition is given only by the number of its line, and transitions with the same end are merged", "anchors": ["contrib/readdstar.py:readdstar", "contrib/readdstar.py:gen_apformula", "contrib/readdstar.py:gen_apsubset"]}
{"id": "C143", "title": "An exported unit in co-simulation visits the locations of its strategy", "statement": "Suppose a master makes, for each period, a step to the end of the period, sets the variables y_i to the state of the linear system and the discrete inputs to their values, makes a step of size 0, and applies the values of the variables u_i to the system for the next period. These are the sizes of steps that the unit gives as maximal, and it accepts them all. If from every point of a location the system can make the next move of the strategy within its bounds, and the solver returns a feasible point whenever there is one, then at every time k the unit answers, the state of the system is in the location of the strategy with number k / N (N is the number of steps for a move), and the values of u_i are within the bounds for inputs. This holds whatever the memory has in it after allocation.", "quantifier": "all systems, partitions, tables and horizons; all sequences of discrete inputs; all numbers of periods; all contents of the memory after allocation; all tolerances of the time", "why_tests_cant": "it combines the calls of the unit, the timing, the automaton, the optimization and the system over unbounded time", "anchors": ["contrib/fmu/sources/TuLiPFMU.c:fmiDoStep", "contrib/fmu/sources/TuLiPFMU.c:fmiSetReal", "contrib/fmu/sources/TuLiPFMU.c:fmiSetInteger", "contrib/fmu/sources/TuLiPFMU.c:fmiGetReal", "contrib/fmu/sources/TuLiPControl.c:transition_function", "contrib/fmu/sources/TuLiPControl.c:compute_control", "contrib/fmu/exportFMU.py:exportFMU"]}
{"id": "C144", "title": "Data exported to XML is imported again", "statement": "For every polytope, region, linear, piecewise affine or switched system and partition, the import of the element that the export makes, also after it is indented, gives back the data, with all nested dictionaries (keys distinct), lists, tuples, texts, numbers, arrays and adjacency matrices, if it has no bools and no sets; the recursion of the import is no deeper than the nesting of the data. The attributes of polytopes and regions that are computed when needed and the propositions of regions are not imported, so that data that was imported once is exported and imported without any change. Numbers, texts, arrays, dictionaries, lists, tuples, sets and adjacency matrices cannot be exported to a file of their own. A bool that is exported raises ValueError when it is imported, a numpy.bool_ that is false becomes true, and a set raises TypeError.", "quantifier": "all data, nested to any depth", "why_tests_cant": "the data is of any shape and depth, and the import finds the parts of an element by tag among optional ones", "anchors": ["contrib/xml/xmlio.py:exportXML", "contrib/xml/xmlio.py:importXML", "contrib/xml/xmlio.py:_export_xml", "contrib/xml/xmlio.py:_import_xml", "contrib/xml/xmlio.py:_make_pretty"]}
