{"id": "C01", "title": "Label maps stay inverse to each other", "statement": "After any sequence of add / remove / inv calls on an InvertibleDict or on the object returned by its .inv, v is in d[k] exactly when k is in d.inv[v], and d.inv.inv is d itself. Calls that fail leave both sides unchanged.", "quantifier": "every initial dictionary, every finite sequence of operations issued on either side, with the inverse being materialised at any point of the sequence", "why_tests_cant": "the inverse is cached lazily and updated incrementally; the number of interleavings of cached/uncached updates on both sides is infinite", "anchors": ["switss/utils/invertible_dict.py: InvertibleDict.add, remove, inv, __getitem__"]}
{"id": "C02", "title": "InvertibleDict operations have exactly the effect they announce", "statement": "add(k,v) makes v a member of d[k] and changes no other pair; remove(k,v) raises exactly when the pair is absent and otherwise deletes only that pair; d[k] returns the empty set for an absent key iff is_default, else raises KeyError.", "quantifier": "every reachable state of the object and every key/value", "why_tests_cant": "frame conditions over all other keys and all histories cannot be enumerated", "anchors": ["switss/utils/invertible_dict.py: InvertibleDict.__getitem__, add, remove, __contains__"]}
{"id": "C03", "title": "Treaps behave as integer sets for every random priority", "statement": "Whatever heap priorities rand() returns, a treap built by a sequence of insertions contains exactly the inserted keys, its size field is the number of distinct keys, and treap_to_arr lists every key exactly once.", "quantifier": "every insertion sequence and every sequence of heap keys", "why_tests_cant": "the structure is randomised; a test sees only some priorities", "anchors": ["switss/utils/treaps.pyx: insert, split_treap, in_treap, add_to_treap, treap_to_arr, update_size_from_successors"]}
{"id": "C04", "title": "successors / predecessors mirror the transition matrix", "statement": "system.successors(s) yields (d,a,p) exactly once for each stored entry P[(s,a),d]=p and nothing else, where the number reported for p is p converted to single precision; system.predecessors(d) yields (s,a,p) for exactly the same transitions, so the two views are converse.", "quantifier": "every transition matrix and state-action index, every state", "why_tests_cant": "holds for every sparse matrix and insertion order", "anchors": ["switss/utils/graph.pyx: Graph.__cinit__, add_successor, successors, predecessors"]}
{"id": "C05", "title": "reachable_mask is exactly graph reachability", "statement": "reachable_mask(F, mode, B) terminates and marks a state iff there is a path (along edges for 'forward', against them for 'backward') from a member of F all of whose states before the last are outside B. The result does not depend on iteration order of F or of the neighbours.", "quantifier": "every graph, from-set, blocklist, direction and iteration order", "why_tests_cant": "unbounded path length; termination of the worklist loop for all graphs", "anchors": ["switss/utils/graph.pyx: Graph.reachable", "switss/model/amdp.py: AbstractMDP.reachable_mask"]}
{"id": "C06", "title": "SCC decomposition is correct", "statement": "The component numbering computed inside a state set gives two states the same number iff they reach each other inside the set using only actions whose successors all lie in the set; the numbers used are exactly 1..count.", "quantifier": "every graph and every state subset, every order of nodes and edges", "why_tests_cant": "Tarjan's invariants range over all recursion trees", "anchors": ["switss/utils/graph.pyx: Graph.strongconnect, Graph.strongly_connected_components"]}
{"id": "C07", "title": "maximal_end_components returns the MEC partition", "statement": "maximal_end_components() terminates; two different states get the same index iff some end component contains both; indices are exactly 0..nr_mecs-1.", "quantifier": "every MDP/DTMC graph and every run of the randomised containers", "why_tests_cant": "worklist refinement over all graphs; maximality quantifies over all end components", "anchors": ["switss/utils/graph.pyx: Graph.maximal_end_components", "switss/model/amdp.py: AbstractMDP.maximal_end_components"]}
{"id": "C08", "title": "A state is reported 'in a proper EC' exactly when an end component contains it", "statement": "For a system in which every state has an action, proper_mecs[mecs[s]] is set iff s belongs to some end component (a nonempty, closed, strongly connected sub-MDP with at least one action per state).", "quantifier": "every system and state", "why_tests_cant": "existence/non-existence of an end component quantifies over all sub-MDPs", "anchors": ["switss/utils/graph.pyx: Graph.maximal_end_components", "switss/model/reachability_form.py: in_proper_ec, is_ec_free, nr_of_proper_mecs"]}
{"id": "C09", "title": "Constructors accept exactly the well-formed probability tables", "statement": "Constructing a DTMC/MDP succeeds only if every row of P sums to 1 up to 9 decimals, all entries are in [0,1], all rewards are non-negative, DTMC matrices are square and DTMC actions are 0; conversely such inputs with a complete in-range index are accepted.", "quantifier": "every matrix, index, label map and reward vector", "why_tests_cant": "input space is infinite; both directions needed", "anchors": ["switss/model/amdp.py: AbstractMDP.__init__, __check_correctness", "switss/model/dtmc.py: DTMC.__init__"]}
{"id": "C10", "title": "Saving and loading a DTMC preserves its transitions", "statement": "DTMC.from_file on the files written by DTMC.save returns a DTMC with the same number of states and the same probabilities.", "quantifier": "every DTMC", "why_tests_cant": "text formatting has to be inverted for all numbers; tests use a few models", "anchors": ["switss/model/dtmc.py: DTMC.save, _load_transition_matrix", "switss/model/amdp.py: from_file"]}
{"id": "C11", "title": "Saving and loading an MDP preserves its transitions", "statement": "MDP.from_file on the files written by MDP.save returns an MDP with the same transition probability for every (state, action, state) triple and an index that is a bijection onto the rows.", "quantifier": "every MDP", "why_tests_cant": "as above; rows are renumbered on load", "anchors": ["switss/model/mdp.py: MDP.save, _load_transition_matrix"]}
{"id": "C12", "title": "Label files round-trip", "statement": "parse_label_file on a .lab file written by save returns, for every label, exactly the set of states carrying it (including labels with no state).", "quantifier": "every label map", "why_tests_cant": "quantifies over all label names and state sets; parser is regex based", "anchors": ["switss/prism/prism.py: parse_label_file", "switss/model/dtmc.py: DTMC.save", "switss/model/mdp.py: MDP.save"]}
{"id": "C13", "title": "reduce yields a system satisfying every reachability-form condition", "statement": "For a system in which every state has an action and the new label names are unused: if the (single) initial state can reach a target, ReachabilityForm.reduce returns a system that passes assert_consistency: exactly one init/target/fail state, target and fail absorbing and placed at the last two rows/columns, every state but fail reachable from init and every state but fail reaching the target. If it cannot, reduce raises an exception. (A target state without any action is silently dropped and its incoming probability sent to fail; the model proves that defect.)", "quantifier": "every system, target set and initial state", "why_tests_cant": "the constructor is called with the checks disabled, so only a proof over all inputs justifies skipping them", "anchors": ["switss/model/reachability_form.py: ReachabilityForm.reduce, __initialize_system, assert_consistency"]}
{"id": "C14", "title": "reduce preserves extremal reachability probabilities", "statement": "In a system in which every state has an action: for every kept state s, the minimal (maximal) probability over all schedulers of reaching the targets from s in the original system equals the minimal (maximal) probability of reaching the new target from the image of s in the reduced system.", "quantifier": "every MDP/DTMC, all (history-dependent, randomised) schedulers, unbounded horizon", "why_tests_cant": "quantifies over infinitely many schedulers and unbounded runs", "anchors": ["switss/model/reachability_form.py: ReachabilityForm.reduce, __initialize_system"]}
{"id": "C15", "title": "reduce copies transition probabilities faithfully and keeps rows stochastic", "statement": "Every row of the reduced system sums to 1; for kept non-target source s and kept destination d the entry equals P[(s,a),d]; the remaining mass goes to fail; rows of old target states go to the new target with probability 1.", "quantifier": "every system", "why_tests_cant": "all matrices", "anchors": ["switss/model/reachability_form.py: ReachabilityForm.reduce, __initialize_system"]}
{"id": "C16", "title": "The state and state-action maps returned by reduce are injective and cover exactly the kept part", "statement": "In a system in which every state has an action, the kept states are those that reach a target and are reachable from the initial state without passing a target; state_map is a bijection between them and 0..N'-3, state_action_map a bijection between state-action pairs of kept states and rows 0..C'-3, and they commute with the projections to states and actions.", "quantifier": "every system", "why_tests_cant": "all systems and row orders", "anchors": ["switss/model/reachability_form.py: ReachabilityForm.reduce"]}
{"id": "C17", "title": "reduce carries labels and rewards over", "statement": "A kept state (state-action pair) has exactly the labels its image has in the reduced system, and the image row carries the same reward; the new target/fail states carry only their own labels and reward 0.", "quantifier": "every labelling and reward vector", "why_tests_cant": "all labellings", "anchors": ["switss/model/reachability_form.py: __initialize_system"]}
{"id": "C18", "title": "Farkas constraint systems describe the documented polytopes whatever was called before", "statement": "For any history of previous fark_z_constraints / fark_y_constraints calls, the returned (M,rhs) satisfies M z <= rhs iff A z <= b and z(init) >= threshold (z-form), resp. M y <= rhs iff y A <= delta_init and b y >= threshold (y-form).", "quantifier": "every RF, every vector, every threshold and every call history on the same object", "why_tests_cant": "the result is cached and mutated between calls", "anchors": ["switss/model/reachability_form.py: fark_z_constraints, fark_y_constraints, fark_constraints"]}
{"id": "C19", "title": "A constraint system already handed out is not changed by later calls", "statement": "The right-hand side returned by fark_z_constraints(t1) still encodes t1 after a later fark_z_constraints(t2).", "quantifier": "every call history", "why_tests_cant": "aliasing over call histories", "anchors": ["switss/model/reachability_form.py: fark_z_constraints, fark_y_constraints"]}
{"id": "C20", "title": "Accepted certificates for Pr_min >= threshold are sound", "statement": "If check_farkas_certificate(rf,'min','>=',t,z,tol=0) returns True then the minimal probability of reaching goal from init is >= t ('>' : strictly greater).", "quantifier": "every RF (with or without end components), every vector and threshold, all schedulers", "why_tests_cant": "universal over schedulers and real vectors", "anchors": ["switss/certification/certificates.py: check_farkas_certificate"]}
{"id": "C21", "title": "Accepted certificates for Pr_max <= threshold are sound", "statement": "If check_farkas_certificate(rf,'max','<=',t,z,tol=0) returns True then the maximal probability of reaching goal from init is <= t ('<': strictly smaller).", "quantifier": "every RF, vector, threshold, scheduler", "why_tests_cant": "universal over schedulers and real vectors", "anchors": ["switss/certification/certificates.py: check_farkas_certificate"]}
{"id": "C22", "title": "Accepted certificates for Pr_max >= threshold are sound", "statement": "If check_farkas_certificate(rf,'max','>=',t,y,tol=0) returns True then the maximal probability of reaching goal from init is >= t ('>': strictly).", "quantifier": "every RF, vector, threshold, scheduler", "why_tests_cant": "universal over schedulers and real vectors", "anchors": ["switss/certification/certificates.py: check_farkas_certificate"]}
{"id": "C23", "title": "Accepted certificates for Pr_min <= threshold are sound", "statement": "If check_farkas_certificate(rf,'min','<=',t,y,tol=0) returns True then the minimal probability of reaching goal from init is <= t ('<': strictly).", "quantifier": "every RF, vector, threshold, scheduler", "why_tests_cant": "universal over schedulers and real vectors", "anchors": ["switss/certification/certificates.py: check_farkas_certificate"]}
{"id": "C24", "title": "Certificates exist for every true statement (z-form)", "statement": "If Pr_min(init) >= t (resp. Pr_max(init) <= t) holds, there is a non-negative vector that check_farkas_certificate accepts with tol=0.", "quantifier": "every RF and threshold in [0,1]", "why_tests_cant": "existence proof over all models", "anchors": ["switss/certification/certificates.py: check_farkas_certificate, generate_farkas_certificate"]}
{"id": "C25", "title": "Certificates exist for every true statement (y-form)", "statement": "If Pr_max(init) >= t (resp. Pr_min(init) <= t) holds, there is a non-negative vector that check_farkas_certificate accepts with tol=0.", "quantifier": "every RF and threshold in [0,1]", "why_tests_cant": "existence proof over all models", "anchors": ["switss/certification/certificates.py: check_farkas_certificate, generate_farkas_certificate"]}
{"id": "C26", "title": "The certificate tolerance bounds the error of the certified probability", "statement": "A certificate accepted with tolerance tol guarantees the bound up to an error that is controlled by tol.", "quantifier": "every RF, tolerance and vector", "why_tests_cant": "error amplification depends on the model and is unbounded over all models", "anchors": ["switss/certification/certificates.py: check_farkas_certificate"]}
{"id": "C27", "title": "generate_farkas_certificate never returns an invalid certificate", "statement": "Whatever the LP solver returns, the result is None or a vector accepted by check_farkas_certificate with the given tolerance; with a correct solver it returns a certificate whenever one exists.", "quantifier": "every RF, mode, sense, threshold and every solver behaviour", "why_tests_cant": "universal over solver answers and models", "anchors": ["switss/certification/certificates.py: generate_farkas_certificate, find_interior_point"]}
{"id": "C28", "title": "pr_min returns the minimal reachability probabilities", "statement": "If the LP solver returns an optimal solution, pr_min()[s] is exactly the minimal probability of reaching goal from s; the LP is feasible and its optimum is unique.", "quantifier": "every RF incl. those with proper end components, all schedulers", "why_tests_cant": "universal over models and schedulers", "anchors": ["switss/model/reachability_form.py: pr_min, max_z_state"]}
{"id": "C29", "title": "pr_max returns the maximal reachability probabilities", "statement": "If the LP solver returns an optimal solution, pr_max()[s] is exactly the maximal probability of reaching goal from s; the LP is feasible and its optimum is unique.", "quantifier": "every RF, all schedulers", "why_tests_cant": "universal over models and schedulers", "anchors": ["switss/model/reachability_form.py: pr_max"]}
{"id": "C30", "title": "max_y_state_action is a flow realising the maximal probability", "statement": "An optimal solution y of the max_y LP satisfies b*y = Pr_max(init), and such an optimum exists.", "quantifier": "every RF", "why_tests_cant": "LP duality over all models", "anchors": ["switss/model/reachability_form.py: max_y_state_action"]}
{"id": "C31", "title": "max_y_state aggregates the state-action flow per state", "statement": "max_y_state()[s] equals the sum over the actions a of s of max_y_state_action()[(s,a)].", "quantifier": "every RF and state, every solver answer", "why_tests_cant": "all models", "anchors": ["switss/model/reachability_form.py: max_y_state", "switss/model/reward_reachability_form.py: max_y_state"]}
{"id": "C32", "title": "max_z_state_action is the one-step lookahead of pr_min", "statement": "max_z_state_action()[(s,a)] = P((s,a),goal) + sum_d P((s,a),d) Pr_min(d), hence min over a equals Pr_min(s).", "quantifier": "every RF and state-action pair", "why_tests_cant": "all models", "anchors": ["switss/model/reachability_form.py: max_z_state_action"]}
{"id": "C33", "title": "MILP.from_coefficients builds exactly the stated program", "statement": "An assignment is feasible for the built program iff A x (<=|>=) b, each variable is in its domain and within its bounds; the objective value is opt*x.", "quantifier": "every matrix, vectors, domains and bounds", "why_tests_cant": "all programs and assignments", "anchors": ["switss/solver/milp.py: MILP.from_coefficients, add_constraint, add_variables_w_bounds, set_objective_function"]}
{"id": "C34", "title": "set_objective_function replaces the objective", "statement": "After set_objective_function(e) the objective of the program is e, whatever was set before.", "quantifier": "every call history", "why_tests_cant": "stateful; all histories", "anchors": ["switss/solver/milp.py: MILP.set_objective_function, GurobiMILP.set_objective_function"]}
{"id": "C35", "title": "Constraints can be added and removed by the returned handle", "statement": "remove_constraint(add_constraint(c)) restores the previous feasible set; other constraints are unaffected.", "quantifier": "every call history and both back ends", "why_tests_cant": "stateful; all histories", "anchors": ["switss/solver/milp.py: MILP.add_constraint, remove_constraint, GurobiMILP.remove_constraint"]}
{"id": "C36", "title": "Variable handles are fresh and both back ends agree on domains", "statement": "add_variables returns handles never returned before, which denote the new variables; a variable declared 'real' without bounds ranges over all reals in both back ends; LP.add_variables(n) adds n variables.", "quantifier": "every call history, both back ends", "why_tests_cant": "stateful; all histories", "anchors": ["switss/solver/milp.py: MILP.add_variables_w_bounds, LP.add_variables, GurobiMILP.add_variables_w_bounds"]}
{"id": "C37", "title": "Computed upper bounds never cut off a point of the polytope", "statement": "With an optimal LP answer, compute_upper_bounds returns a vector u such that every x >= 0 with A x <= b satisfies x <= u pointwise, for square (DTMC) and non-square systems.", "quantifier": "every RF/reward RF whose polytope is bounded, every point of the polytope", "why_tests_cant": "universal over points of a polytope", "anchors": ["switss/problem/formulations.py: compute_upper_bounds"]}
{"id": "C38", "title": "MILPExact (min) returns a smallest witnessing subsystem", "statement": "With a correct MILP solver, MILPExact.solve(rf,t,'min') reports the minimal number of states of a subsystem whose minimal reachability probability is >= t, returns a subsystem of that size, and reports infeasible iff no subsystem exists.", "quantifier": "every RF (incl. proper end components), threshold and every competing subsystem", "why_tests_cant": "optimality quantifies over all subsystems and schedulers", "anchors": ["switss/problem/milpexact.py: MILPExact._solveiter", "switss/problem/formulations.py: construct_MILP, add_indicator_constraints, groups_from_labels"]}
{"id": "C39", "title": "MILPExact (max) returns a smallest witnessing subsystem", "statement": "Same for mode 'max' and maximal reachability probability.", "quantifier": "every EC-free RF, threshold and every competing subsystem", "why_tests_cant": "optimality quantifies over all subsystems and schedulers", "anchors": ["switss/problem/milpexact.py: MILPExact._solveiter", "switss/problem/formulations.py: construct_MILP, compute_upper_bounds"]}
{"id": "C40", "title": "Label-based minimisation minimises the number of used labels", "statement": "With labels given, the optimal MILP value is the smallest number of the given labels present in a witnessing subsystem.", "quantifier": "every RF, label list and competing subsystem", "why_tests_cant": "optimality over all subsystems", "anchors": ["switss/problem/formulations.py: groups_from_labels, construct_MILP"]}
{"id": "C41", "title": "Every result of QSHeur is a valid witness", "statement": "Each ProblemResult with status success produced by QSHeur.solveiter carries a certificate inside the Farkas polytope for the threshold (non-negative and zero on proper end components in min mode), hence a witnessing subsystem.", "quantifier": "every RF, threshold, initializer, updater, number of iterations and every optimal answer of the solver in every iteration", "why_tests_cant": "universal over iteration histories and solver tie-breaking", "anchors": ["switss/problem/qsheur.py: QSHeur._solveiter"]}
{"id": "C42", "title": "QSHeur iteration protocol", "statement": "solveiter yields at least one and at most `iterations` results; all but possibly the last are successes; it stops at the first failure; solve returns the last one.", "quantifier": "every iteration count >= 1 and solver behaviour", "why_tests_cant": "all solver behaviours", "anchors": ["switss/problem/qsheur.py: QSHeur._solveiter", "switss/problem/problemform.py: solve"]}
{"id": "C43", "title": "Fixed-zeros updating never re-adds a removed group", "statement": "With InverseResultFixedZerosUpdater a group whose indicator is 0 in some iteration is 0 in all later ones, so reported sizes never increase, and the LP stays feasible.", "quantifier": "every RF and every solver behaviour over all iterations", "why_tests_cant": "history property", "anchors": ["switss/problem/qsheurparams.py: InverseResultFixedZerosUpdater", "switss/problem/qsheur.py"]}
{"id": "C44", "title": "Inverse-result weights are positive, bounded and order reversing", "statement": "InverseResultUpdater assigns every group one positive weight of at most 1e9; groups with smaller last value never get smaller weight, removed groups get the largest weight.", "quantifier": "every result vector with non-negative indicator values", "why_tests_cant": "all real vectors", "anchors": ["switss/problem/qsheurparams.py: InverseResultUpdater.update"]}
{"id": "C45", "title": "Subsystem of a certificate is a witness", "statement": "If z (min) / y (max) is a non-negative certificate for threshold t > 0 then Subsystem(rf,cert,mode).subsys has minimal / maximal probability of reaching its target from init >= t.", "quantifier": "every RF, certificate and threshold", "why_tests_cant": "universal over certificates and schedulers", "anchors": ["switss/problem/subsystem.py: Subsystem.subsystem_mask, subsys"]}
{"id": "C46", "title": "Subsystem probabilities never exceed those of the full system", "statement": "For every kept state the extremal reachability probability in the subsystem is at most that in the supersystem, for every certificate vector.", "quantifier": "every RF, vector, state and scheduler", "why_tests_cant": "universal over schedulers", "anchors": ["switss/problem/subsystem.py: Subsystem.subsys"]}
{"id": "C47", "title": "Subsystem construction is faithful", "statement": "subsys consists of exactly the states with positive certificate entry (min) / with a positive action entry (max), with all their actions, the original probabilities among kept states and to target, the rest to fail; rows sum to 1; state labels are kept.", "quantifier": "every RF and certificate vector", "why_tests_cant": "all models", "anchors": ["switss/problem/subsystem.py: Subsystem.subsystem_mask, subsys"]}
{"id": "C48", "title": "Subsystem keeps action labels", "statement": "actions_by_label of the subsystem maps each label to the images of the kept state-action pairs carrying it.", "quantifier": "every RF with action labels", "why_tests_cant": "all labellings", "anchors": ["switss/problem/subsystem.py: Subsystem.subsys"]}
{"id": "C49", "title": "solve reports the final result of the method", "statement": "ProblemFormulation.solve returns the last result of solveiter; in particular a timed-out run of TreeAlgo is not reported as success, and an infeasible one is reported as infeasible.", "quantifier": "every method behaviour", "why_tests_cant": "depends on generator histories", "anchors": ["switss/problem/problemform.py: solve, solveiter", "switss/problem/tree_algo.py: TreeAlgo._solveiter"]}
{"id": "C50", "title": "rew_min / rew_max return the extremal expected rewards", "statement": "With an optimal LP answer, rew_max()[s] (rew_min()[s]) is the maximal (minimal) expected total reward accumulated from s before reaching the target; the optimum exists and is unique.", "quantifier": "every reward reachability form, all schedulers", "why_tests_cant": "universal over schedulers, unbounded horizon", "anchors": ["switss/model/reward_reachability_form.py: rew_min, rew_max, max_z_state"]}
{"id": "C51", "title": "Reward reduction preserves expected rewards", "statement": "RewardReachabilityForm.reduce keeps the expected reward accumulated until the target states are reached.", "quantifier": "every system accepted by reduce, all schedulers", "why_tests_cant": "universal over schedulers", "anchors": ["switss/model/reward_reachability_form.py: reduce", "switss/model/reachability_form.py: reduce"]}
{"id": "C52", "title": "RewardReachabilityForm.fromsystem wraps a consistent system", "statement": "fromsystem succeeds on every system that satisfies assert_system_consistency.", "quantifier": "every such system", "why_tests_cant": "all systems", "anchors": ["switss/model/reward_reachability_form.py: fromsystem"]}
{"id": "C53", "title": "Benchmark runs report each threshold in order and stop as documented", "statement": "run() returns one entry per threshold, in increasing order, with as many values as results were produced; it stops at the first infeasible threshold (not recorded) or at the first timeout (recorded as -1) when stop_on_timeout.", "quantifier": "every method behaviour and threshold grid", "why_tests_cant": "all result streams", "anchors": ["switss/benchmarks/benchmarks.py: run"]}
{"id": "C54", "title": "PRISM constants are passed as given", "statement": "prism_to_tra(\u2026, prism_constants={'N':2}) passes -const N=2 to prism for every constant of the dictionary.", "quantifier": "every constants dictionary", "why_tests_cant": "all dictionaries", "anchors": ["switss/prism/prism.py: prism_to_tra"]}
{"id": "C55", "title": "Tree decomposition enumerates all combinations of successor points", "statement": "The iterator over the points of the successor partitions visits every combination exactly once and never indexes out of range.", "quantifier": "every number of successors and points per successor", "why_tests_cant": "all sizes", "anchors": ["switss/utils/tree_decomp.pyx: increase_iterator, get_point, handle_subsys"]}
{"id": "C56", "title": "Choice models built from storm label the right states", "statement": "choice_model_from_stormpy labels state N+i with the labels of choice i and with 'choice'.", "quantifier": "every stormpy model", "why_tests_cant": "all models", "anchors": ["switss/model/mdp.py: MDP.choice_model_from_stormpy"]}
{"id": "C57", "title": "Verdicts about the original model", "statement": "If reduce is applied to a model and a (z-form or non-negative y-form) certificate is accepted for the resulting RF with tol=0, then the corresponding bound holds for the probability of reaching the target states from the initial state of the original model.", "quantifier": "every model, certificate and threshold", "why_tests_cant": "end-to-end statement over all schedulers", "anchors": ["switss/model/reachability_form.py: reduce", "switss/certification/certificates.py: check_farkas_certificate"]}
{"id": "C58", "title": "Constructing models does not modify the caller's data", "statement": "Later label additions on the constructed model do not change the dictionary of label sets that was passed to the constructor.", "quantifier": "every caller dictionary and every sequence of add_label calls", "why_tests_cant": "aliasing over all histories", "anchors": ["switss/model/amdp.py: AbstractMDP.__init__, add_label", "switss/utils/invertible_dict.py: InvertibleDict.__init__"]}
{"id": "C59", "title": "MDP loading numbers rows consistently", "statement": "_load_transition_matrix assigns consecutive row indices to state-action pairs in order of first appearance, stores every transition in the row of its pair, and the last probability wins for repeated lines.", "quantifier": "every .tra file content", "why_tests_cant": "all files", "anchors": ["switss/model/mdp.py: MDP._load_transition_matrix"]}
{"id": "C60", "title": "Extremal probabilities are attained by memoryless schedulers", "statement": "In every RF there are memoryless deterministic schedulers attaining the minimal and the maximal reachability probability simultaneously for all states, so the values reported by pr_min / pr_max are realised by a concrete scheduler.", "quantifier": "every RF and state", "why_tests_cant": "existence over all models, optimality over all schedulers", "anchors": ["switss/model/reachability_form.py: pr_min, pr_max"]}
{"id": "C61", "title": "Exact minimisation finds smallest sets collecting the required expected reward", "statement": "For a reward form made by RewardReachabilityForm.reduce and a threshold t >= 0, MILPExact(mode) reports success with value k exactly if some set of states of the form, with k states (or k of the given labels), collects an expected reward of at least t before the target is reached or the set is left, and no set of smaller cost does; it reports infeasible only if no set of states does.", "quantifier": "every model with non-negative rewards, threshold, mode, label list and correct solver answers", "why_tests_cant": "optimality over all sets of states and all schedulers, for all models", "anchors": ["switss/problem/milpexact.py: MILPExact", "switss/problem/formulations.py: construct_MILP, groups_from_labels, compute_upper_bounds", "switss/model/reward_reachability_form.py: RewardReachabilityForm"]}
{"id": "C62", "title": "Heuristic results on reward forms collect the required expected reward", "statement": "Every success reported by QSHeur on a reward form carries a non-negative certificate whose selected states collect at least the threshold, with a value that is at least their number; with solvers that solve every LP there are as many successes as iterations if the form meets the threshold and a single infeasible otherwise.", "quantifier": "every model with non-negative rewards, threshold, mode, labels, initializer, updater and number of iterations", "why_tests_cant": "all models, iterations and solver answers", "anchors": ["switss/problem/qsheur.py: QSHeur", "switss/model/reward_reachability_form.py: RewardReachabilityForm"]}
{"id": "C63", "title": "Benchmarks run the thresholds from from_thr to to_thr", "statement": "run() visits exactly the thresholds from_thr, from_thr+step, ... up to and including to_thr.", "quantifier": "every from_thr, to_thr and positive step", "why_tests_cant": "all grids", "anchors": ["switss/benchmarks/benchmarks.py: run"]}
{"id": "C64", "title": "Benchmark results can be plotted", "statement": "render() plots every result of run(): one curve per result number (only the last one in mode laststates-thr), showing the recorded values at their thresholds.", "quantifier": "every result of run()", "why_tests_cant": "all result streams", "anchors": ["switss/benchmarks/benchmarks.py: render"]}
{"id": "C65", "title": "Models read from storm are the given models", "statement": "from_stormpy(model) returns a system with the states of the model, one row per choice with its probabilities, and exactly the labels of its states and choices.", "quantifier": "every well-formed stormpy model, for MDP and DTMC", "why_tests_cant": "all models", "anchors": ["switss/model/amdp.py: from_stormpy", "switss/model/mdp.py: MDP.from_stormpy_model", "switss/model/dtmc.py: DTMC.from_stormpy_model"]}
{"id": "C66", "title": "The tree algorithm returns the size of a smallest subsystem", "statement": "For a Markov chain, a partition of its states whose quotient is a tree and a threshold t > 0, TreeAlgo(partition).solve reports success with value k only if some subsystem with k states reaches the target with probability at least t and no subsystem with fewer states does; it reports a number whenever a subsystem within the known upper bound exists.", "quantifier": "every Markov chain in reachability form, tree partition, threshold and upper bound", "why_tests_cant": "optimality over all sets of states, for all chains and partitions", "anchors": ["switss/problem/tree_algo.py: TreeAlgo._solveiter", "switss/utils/tree_decomp.pyx: min_witnesses_from_tree_decomp", "switss/utils/graph_utils.py: quotient"]}
{"id": "C67", "title": "A reachability form tells the truth about its end components", "statement": "in_proper_ec(s) is True exactly if some end component contains s (IndexError for target, fail and larger numbers), state_to_mec gives two states the same index exactly if some end component contains both, nr_of_proper_mecs is the number of maximal end components besides target and fail, nr_of_mecs the number of classes of states, and is_ec_free is True exactly if no end component contains any other state than target and fail.", "quantifier": "every reachability form and every state", "why_tests_cant": "all graphs; end components are subsets of states, of which there are exponentially many", "anchors": ["switss/model/reachability_form.py: in_proper_ec, state_to_mec, nr_of_mecs, nr_of_proper_mecs, is_ec_free", "switss/utils/graph.pyx: maximal_end_components"]}
{"id": "C68", "title": "check_farkas_certificate accepts exactly the vectors of the documented polytopes", "statement": "check_farkas_certificate(rf, mode, sense, t, v, tol) returns True exactly if v satisfies, up to tol, the inequalities over the transition probabilities that belong to mode and sense (strictly at the threshold for < and >) and vanishes on end components in mode min; it raises AssertionError exactly if t is not in [0,1] or v has the wrong length, and never raises otherwise.", "quantifier": "every reachability form, mode, sense, threshold, tolerance and vector", "why_tests_cant": "all forms and all real vectors", "anchors": ["switss/certification/certificates.py: check_farkas_certificate", "switss/model/reachability_form.py: fark_z_constraints, fark_y_constraints"]}
{"id": "C69", "title": "Certificates for expected rewards", "statement": "On a reward form check_farkas_certificate accepts a vector only if the expected reward satisfies the bound, for every mode, sense and threshold, and some vector is accepted whenever the bound holds.", "quantifier": "every model with non-negative rewards whose target is reached almost surely, every mode, sense and threshold", "why_tests_cant": "all models, schedulers and vectors", "anchors": ["switss/certification/certificates.py: check_farkas_certificate, generate_farkas_certificate", "switss/model/reward_reachability_form.py: RewardReachabilityForm"]}
{"id": "C70", "title": "Saved reachability forms are accepted when loaded again", "statement": "If ReachabilityForm(system, i, t, f) is accepted, then after system.save and from_file the call ReachabilityForm(loaded, i, t, f) is accepted too, with the same initial state and the same minimal and maximal probability of reaching the target from every state; in particular for the systems made by reduce and by Subsystem.subsys.", "quantifier": "every DTMC or MDP whose probabilities have at most six decimals, every accepted choice of labels", "why_tests_cant": "all models and all orders of stored entries", "anchors": ["switss/model/amdp.py: AbstractMDP.save", "switss/model/mdp.py: MDP.from_file", "switss/model/dtmc.py: DTMC.from_file", "switss/model/reachability_form.py: assert_consistency, reduce", "switss/problem/subsystem.py: Subsystem.subsys"]}
{"id": "C71", "title": "QSHeur's first weights are larger for groups that matter less", "statement": "InverseReachabilityInitializer gives every label group the inverse of the mean probability of reaching the target over its states (state-action pairs in mode max), at most 1e9; InverseFrequencyInitializer and InverseCombinedInitializer give the inverse of the summed frequency (times probability), at most 1e9. No group gets a smaller weight than a group with a larger mean or sum.", "quantifier": "every reachability form, mode, label grouping and optimal solver answer", "why_tests_cant": "all models and groupings; the claim compares every two groups", "anchors": ["switss/problem/qsheurparams.py: InverseReachabilityInitializer, InverseFrequencyInitializer, InverseCombinedInitializer"]}
{"id": "C72", "title": "ReachabilityForm accepts exactly the systems in reachability form", "statement": "ReachabilityForm(system, i, t, f) returns exactly if the three labels are different, each is carried by exactly one state, target and fail are the last two states, each with a single action that loops with probability one in the last two rows, every state except fail is reachable from the initial state, and every state except fail reaches the target; every other system is rejected with AssertionError (KeyError for a label unknown to a label map without defaults).", "quantifier": "every system and every three labels", "why_tests_cant": "all systems: both directions of an equivalence with reachability conditions", "anchors": ["switss/model/reachability_form.py: ReachabilityForm.__init__, assert_consistency"]}
{"id": "C73", "title": "assert_system_consistency accepts exactly the systems in reward reachability form", "statement": "RewardReachabilityForm.assert_system_consistency(system, i, t) passes exactly if the system has rewards, the labels are different, each carried by exactly one state, the target is the last state with a single looping action in the last row, every state is reachable and reaches the target, and no end component besides the target exists; otherwise it raises AssertionError.", "quantifier": "every system and every two labels", "why_tests_cant": "all systems; the condition speaks about all end components", "anchors": ["switss/model/reward_reachability_form.py: assert_system_consistency, fromsystem"]}
{"id": "C74", "title": "Matrices may be given as lists", "statement": "MDP(P, index, ...) and DTMC(P, ...) accept P as a list of lists: a non-empty rectangular list is taken as the matrix with these entries, it is accepted exactly if each inner list sums to one up to nine decimals with entries in [0,1] (and the index and rewards fit), and the system has exactly these probabilities; ragged lists raise ValueError; a flat list is a single column.", "quantifier": "every list of lists of numbers, every index and reward vector", "why_tests_cant": "all matrices and shapes", "anchors": ["switss/utils/casting.py: cast_dok_matrix", "switss/model/amdp.py: AbstractMDP.__init__"]}
{"id": "C75", "title": "The command certify calls only true bounds VALID", "statement": "switss certify -c FILE prints, for every certificate of the file, VALID only if the minimal (mode min) or maximal (mode max) probability of reaching the target from the initial state is at least the stored threshold; every true bound has a certificate that is called VALID; it prints one verdict per certificate; and it accepts the files that switss minimize writes.", "quantifier": "every model file, certificate file, mode, threshold and tolerance", "why_tests_cant": "all models, schedulers and vectors", "anchors": ["bin/switss: certify", "switss/certification/certificates.py: check_farkas_certificate"]}
{"id": "C76", "title": "The command rf writes a form that stands for the given model", "statement": "The .lab and .tra files written by switss rf can be loaded and are accepted by the other commands as a reachability form; its initial state has the minimal and maximal probability of reaching the target of the initial state of the given model, so a certificate that certify calls VALID for the written form proves the bound for the given model; the mapping file relates exactly the state-action pairs of the needed states with those of the written form.", "quantifier": "every model file with at most six decimals, every choice of labels", "why_tests_cant": "all models; the claim composes loading, reducing, saving and loading again", "anchors": ["bin/switss: rf", "switss/model/reachability_form.py: reduce", "switss/model/amdp.py: save"]}
{"id": "C77", "title": "The command minimize stores a certificate for the computed subsystem", "statement": "switss minimize -m METHOD mode=MODE ... -s threshold=T stores a file with the certificate of the subsystem found by the method whenever the solver finds one, and with -si one certificate per iteration.", "quantifier": "every accepted model, method, parameters and solver answers", "why_tests_cant": "all arguments and all solver behaviours", "anchors": ["bin/switss: minimize, params_to_dict", "switss/problem/problemform.py: solve, solveiter", "switss/problem/qsheur.py: QSHeur.__init__", "switss/problem/milpexact.py: MILPExact.__init__"]}
{"id": "C78", "title": "The command subsystem marks the states of the subsystems", "statement": "switss subsystem -c FILE --label L writes one model per certificate of the file; the model can be loaded and has the states, actions, probabilities and other labels of the given one, and exactly the states of the subsystem of the certificate carry the label L.", "quantifier": "every accepted model, certificate file and unused label", "why_tests_cant": "all models and certificates; the claim composes masks, label maps, saving and loading", "anchors": ["bin/switss: subsystem", "switss/problem/subsystem.py: subsystem_mask", "switss/utils/graph.pyx: Graph"]}
{"id": "C79", "title": "Pictures of systems show exactly the transitions", "statement": "digraph() of an MDP (DTMC) has one node for every state that has an action or can be entered, with the attributes given by state_map for the state and its labels; for an MDP one node per state-action pair and one edge to it from its state; and one edge per transition of positive probability, with the attributes given by trans_map for its ends and its probability. There are no other nodes and edges, and names are distinct.", "quantifier": "every system and all functions state_map, trans_map, action_map", "why_tests_cant": "all systems and callbacks", "anchors": ["switss/model/mdp.py: MDP.digraph", "switss/model/dtmc.py: DTMC.digraph"]}
{"id": "C80", "title": "Pictures of subsystems grey out the other states and show the entries", "statement": "Subsystem.digraph(show_weights) returns the picture of the whole system in which the states that are not selected are grey and all others are as before, except that with show_weights the label of a selected state shows its entry ('min' certificates, or DTMC) and the label of an action of a selected state shows the entry of the action ('max' certificates of MDPs).", "quantifier": "every reachability form, vector, mode and formatting functions", "why_tests_cant": "all systems, vectors and callbacks", "anchors": ["switss/problem/subsystem.py: Subsystem.digraph"]}
{"id": "C81", "title": "Transition files of DTMCs mean what their lines say", "statement": "Loading the .tra file of a DTMC succeeds exactly if every line either has two words, the first a number (the number of states from here on), or starts with source, destination and probability, where source and destination are states, that is, numbers below the number n of states given by the last line of two words before it (1 without one) and not below -n; negative ones count from the end. Then the system has as many states as the last line of two words says, the probability of a transition is that of its last line unless a later line of two words cuts one of its states off, and zero without such a line.", "quantifier": "every content of the file, also repeated lines, several size lines, other line ends and additional words", "why_tests_cant": "unboundedly many file contents; the order of lines matters", "anchors": ["switss/model/dtmc.py: DTMC._load_transition_matrix"]}
{"id": "C82", "title": "Label files mean what their lines say", "statement": "prism.parse_label_file succeeds exactly if the file has a first line and every other line contains a number, a colon and numbers that the first line gives a label to (number=\"label\", the last one for a number counts). The result has exactly the labels of the first line; a state has a label exactly if some line of the state lists a number of the label; the map from states to labels is the inverse of the map from labels to states. The empty file raises IndexError, a line without number and colon AttributeError, a word that is no number ValueError, a number without label KeyError.", "quantifier": "every content of the file", "why_tests_cant": "unboundedly many file contents; the behaviour of the two regular expressions on arbitrary text", "anchors": ["switss/prism/prism.py: parse_label_file"]}
{"id": "C83", "title": "from_file returns exactly the system described by the two files", "statement": "MDP.from_file and DTMC.from_file return a system exactly if both files are well-formed, all sources and destinations are states, the number of choices is as announced (MDP), and for each state-action pair the probabilities of the last lines lie between 0 and 1 and sum to one up to 5e-10. The system has exactly these states, actions, probabilities and labels, every label belongs to states of the system, and there are no rewards.", "quantifier": "every content of the two files", "why_tests_cant": "unboundedly many file contents; the claim composes both parsers with the checks of the constructor", "anchors": ["switss/model/amdp.py: from_file", "switss/model/mdp.py: MDP._load_transition_matrix", "switss/model/dtmc.py: DTMC._load_transition_matrix", "switss/prism/prism.py: parse_label_file"]}
{"id": "C84", "title": "Malformed transition files raise IndexError or ValueError", "statement": "Loading a .tra file stops at the first line that is not accepted: a required word that is missing raises IndexError, a word that is no number where one is required raises ValueError, whichever comes first in the line; a destination (for a DTMC also a source) that is no state, and a state-action pair for which no choice is left, raise IndexError; a negative number of states or choices raises ValueError; the empty file of an MDP raises IndexError.", "quantifier": "every content of the file with a first malformed line", "why_tests_cant": "unboundedly many file contents; which exception is raised depends on all lines before", "anchors": ["switss/model/mdp.py: MDP._load_transition_matrix", "switss/model/dtmc.py: DTMC._load_transition_matrix"]}
{"id": "C85", "title": "Unusable arguments are rejected before any work", "statement": "generate_farkas_certificate raises AssertionError exactly for thresholds outside [0,1] and otherwise returns if the solver answers; solve and solveiter of every method raise AssertionError for negative thresholds and, for reachability forms, for thresholds above one, without any result; Subsystem raises AssertionError exactly for vectors of the wrong length; QSHeur(iterations=0).solve never returns a subsystem and raises IndexError whenever one exists; plotting benchmark entries without values raises ValueError.", "quantifier": "every reachability form, threshold, tolerance, vector, method and solver answer", "why_tests_cant": "all systems and all solver behaviours", "anchors": ["switss/certification/certificates.py: generate_farkas_certificate", "switss/problem/problemform.py: solve, solveiter", "switss/problem/subsystem.py: Subsystem.__init__", "switss/problem/qsheur.py: QSHeur._solveiter", "switss/benchmarks/benchmarks.py: render"]}
{"id": "C86", "title": "Results for a reduced model speak about the original model", "statement": "ReachabilityForm.reduce returns, beside the form, the states it keeps. For every model that can be reduced: the probability of reaching the target in the subsystem a result describes is the probability of reaching the target labels in the original model through the corresponding original states only; a certificate accepted for >= t (or > t) for the reduced form shows that this probability is >= t (> t); MILPExact finds a smallest set of original states through which the target is reached with probability >= t (smallest number of labels with at least one state in the set, if labels are given), and answers infeasible only if there is none; QSHeur finds such a set, not necessarily a smallest one, and answers infeasible only if there is none; with solvers that solve every problem MILPExact succeeds exactly if the minimal (for forms without end components also the maximal) probability in the original model is at least t.", "quantifier": "every model in which every state has an action, initial state and target labels, threshold, certificate, set of states, label list and solver answers", "why_tests_cant": "quantifies over all models and over all sets of states of the original model; composes reduction, certificates, subsystems and optimization", "anchors": ["switss/model/reachability_form.py: reduce", "switss/certification/certificates.py: check_farkas_certificate", "switss/problem/subsystem.py: Subsystem.subsys", "switss/problem/milpexact.py: MILPExact", "switss/problem/qsheur.py: QSHeur"]}
{"id": "C87", "title": "Certificates for rounded probabilities", "statement": "The constructors accept matrices whose row sums are one after rounding to nine decimals. For every accepted matrix without stored zeros, dividing each row by its sum gives a model with exact probabilities, no entry changed by more than 5e-10; a reachability form exists for one exactly if it exists for the other. More generally, if check_farkas_certificate accepts a vector for a model, then for every model with the same states, actions, labels and transitions whose probabilities differ by at most eta it accepts the vector with the tolerance raised by eta*(1+sum|v|), and the certified bound holds for the probabilities of that model up to (tol+eta*(1+sum|v|)) times a factor: 1+N/eps^N for vectors over states (eps the smallest positive probability, N the number of states), N for non-negative vectors over state-action pairs.", "quantifier": "every two models that differ only in the numbers, threshold, vector, tolerance, mode and sense", "why_tests_cant": "quantifies over all perturbations of all models; the exact probabilities of the accepted, slightly wrong table are not computed anywhere", "anchors": ["switss/model/amdp.py: AbstractMDP.__check_correctness", "switss/model/reachability_form.py: ReachabilityForm.__init__", "switss/certification/certificates.py: check_farkas_certificate"]}
{"id": "C88", "title": "Entries of value zero do not matter", "statement": "Whether an entry of value zero of the given matrix is stored explicitly (as sparse matrices may) or left out, and in which order the entries are stored, has no influence: reachability forms exist for the one exactly if for the other, and check_farkas_certificate accepts the same vectors. In particular accepted certificates are sound for matrices with stored zeros.", "quantifier": "every two matrices with the same entries", "why_tests_cant": "quantifies over all sparse representations of all matrices; tests build matrices from lists, where zeros are dropped", "anchors": ["switss/utils/casting.py: cast_dok_matrix", "switss/utils/graph.pyx: Graph.__cinit__", "switss/certification/certificates.py: check_farkas_certificate"]}
{"id": "C89", "title": "Labels and vectors that do not fit are rejected", "statement": "If one of the labels given to MILPExact or QSHeur (pulp) is on the goal or fail state, solve raises IndexError (or reports infeasible, for maximal probabilities). MILP.from_coefficients (pulp) raises IndexError exactly if the right side is shorter than the matrix has rows, or the objective, the domains or the bounds are shorter than it has columns, and otherwise returns. RewardReachabilityForm.reduce and its consistency checks raise AssertionError for systems without rewards.", "quantifier": "every form, label list, threshold, solver, matrix and vectors", "why_tests_cant": "all systems, label lists and solver behaviours; the exception depends on the order in which constraints are added", "anchors": ["switss/problem/formulations.py: groups_from_labels, add_indicator_constraints, construct_MILP", "switss/solver/milp.py: MILP.from_coefficients", "switss/model/reward_reachability_form.py: reduce, assert_reachform_consistency"]}
{"id": "C90", "title": "Pictures of reduced models use the look of the original model", "statement": "If the callbacks of the given system return for all arguments and treat labels as a set, then rf.system.digraph() for the form returned by ReachabilityForm.reduce does not raise; it shows every kept state and each of its actions as the callbacks draw them with the state numbers, actions and labels of the original system, every transition between kept states with its original ends and probability, the goal and fail states, their actions and all edges into them with the styles set for goal and fail, an edge to goal for every action of an original target state and an edge to fail exactly for the actions that can lead to a dropped state, and nothing else. set_target_visualization_style and set_fail_visualization_style change how goal and fail are drawn in later pictures of a form.", "quantifier": "every model in which every state has an action, labels for which reduce returns, callbacks and styles", "why_tests_cant": "quantifies over all models and over all callbacks; tests look at single pictures", "anchors": ["switss/model/reachability_form.py: reduce, __adapt_style, set_target_visualization_style, set_fail_visualization_style", "switss/model/mdp.py: digraph", "switss/model/dtmc.py: digraph"]}
{"id": "C91", "title": "Certificates checked on saved models", "statement": "save writes probabilities with six decimals. If the files can be loaded and check_farkas_certificate accepts a vector v for the loaded model, the bound holds for the model that was saved, provided its positive probabilities are above 5e-7, up to (tol+5e-7*(1+sum|v|)) times 1+N/eps^N for vectors over states (eps the smallest positive probability) or N for non-negative vectors over state-action pairs; in the same way a certificate that switss certify calls VALID for the files written by switss rf holds for the model given to rf. The error cannot be neglected: there is a model with three states for which the commands call a certificate for 'at least 0.5' VALID with tolerance 0 although the probability is below 0.3.", "quantifier": "every model with probabilities above 5e-7, labels, vector, threshold, tolerance, mode and sense", "why_tests_cant": "quantifies over all models and all certificates; the unrounded probabilities are not available after loading", "anchors": ["switss/model/dtmc.py: save", "switss/model/mdp.py: save", "switss/model/amdp.py: from_file", "bin/switss: rf, certify", "switss/certification/certificates.py: check_farkas_certificate"]}
{"id": "C92", "title": "The tree algorithm handles memory correctly", "statement": "For every Markov chain and every partition of its states whose quotient is a tree, TreeAlgo(partition).solve neither reads memory outside the blocks it allocated or after freeing them, nor frees a block twice, and when it returns it has given back the blocks it allocated.", "quantifier": "every Markov chain, tree partition, points kept for the parts and subsystems enumerated", "why_tests_cant": "reads of freed memory may pass unnoticed in a test run, and the enumerated subsystems depend on all numbers of the model", "anchors": ["switss/utils/tree_decomp.pyx: min_witnesses_from_tree_decomp, handle_subsys, get_point, free_mem"]}
{"id": "C93", "title": "benchmarks.run accepts one or several methods and modes as documented", "statement": "run(form, method, mode, ...) accepts for method one formulation or a list, and for mode 'min', 'max' or a list of them. With one method and one mode it returns the data of that run; with lists it returns one data set for each pair of method and mode; a single mode given with a list of methods is used for all of them, and a list of modes given with one method is used for that method. The call raises exactly if a threshold to visit is negative or a mode is unknown.", "quantifier": "every list of methods, modes, threshold range with positive step, and behaviour of the methods", "why_tests_cant": "quantifies over all methods and ranges; each combination of argument kinds needs its own test", "anchors": ["switss/benchmarks/benchmarks.py: run", "switss/problem/problemform.py: solveiter"]}
{"id": "C94", "title": "Time plots mark timeouts with timeout_val", "statement": "render(run, mode='wall_time-thr' or 'proc_time-thr', timeout_val=v) plots for every recorded threshold the time of its last result, shown as one second if it is smaller and cap_times_below_onesec is set, and v for those that ended in a timeout.", "quantifier": "every recorded run, timeout value and setting of the cap", "why_tests_cant": "quantifies over all measured times", "anchors": ["switss/benchmarks/benchmarks.py: render, run"]}
{"id": "C95", "title": "Certificates checked in floating point arithmetic", "statement": "Let each addition, subtraction and multiplication be rounded with relative error u and absolute error nu, in whatever order scipy visits the stored entries. If check_farkas_certificate accepts a vector, the check with exact numbers accepts it with the tolerance raised by ((1+u+nu)^(D+3)-1)*(sum|v|+tol) + (2D+1)*(1+u+nu)^(D+1)*nu for vectors of length D, and conversely it accepts what the exact check accepts with the tolerance lowered by as much. In double precision the difference is at most 2^-32*(1+sum|v|+tol) for vectors with up to 2^20 entries, a row that passes the check of the constructor sums up to one within 1e-9, and so the certified bounds hold up to a stated error for the model with exact probabilities obtained by dividing each row by its sum. With tolerance 0 the verdict can be wrong.", "quantifier": "every model with up to 2^20 states and rows that the constructors accept, form, vector, threshold, tolerance, mode and sense, order of storing", "why_tests_cant": "quantifies over all models, vectors and orders of summation; a test run sees the rounding of one machine on single inputs", "anchors": ["switss/certification/certificates.py: check_farkas_certificate", "switss/model/reachability_form.py: A, fark_z_constraints, fark_y_constraints", "switss/model/amdp.py: __check_correctness"]}
{"id": "C96", "title": "Certificates for the result of reduce on rounded probabilities", "statement": "The constructors accept rows whose sum is one after rounding to nine decimals. If reduce is applied to such a model whose rows sum to at most one, the row of a kept state-action pair leads to fail with the probability of leaving the kept states plus the probability missing in the row. What check_farkas_certificate accepts for the result holds for the exact models nearby: lower bounds certified with tolerance 0 hold for every model with exact probabilities that are at least those given, and bounds certified with the default tolerance hold up to a small error.", "quantifier": "every model with row sums positive and at most one, exact models above it, labels, thresholds and vectors", "why_tests_cant": "quantifies over all models near the given one; whether a sum of floats falls short of one depends on all digits", "anchors": ["switss/model/reachability_form.py: reduce, __initialize_system", "switss/model/amdp.py: __check_correctness", "switss/certification/certificates.py: check_farkas_certificate"]}
{"id": "C97", "title": "Asking for neighbours and reachable states is safe and leaves no memory behind", "statement": "Construct a system, ask it any number of times and in any order for successors, predecessors and reachable_mask with states of the system, and release it. No memory outside the allocated blocks is accessed, nothing is read before it was written or after it was freed, nothing is freed twice, every call answers as documented, and in the end every block taken since the construction was given back; the same if the construction raises KeyError. With a state number that is negative or too large the behaviour is undefined, since nothing checks it.", "quantifier": "every matrix and index map, every sequence of calls with any arguments, every state of the memory before", "why_tests_cant": "out-of-bounds accesses and leaks are not visible in the results of a test run, and depend on the whole sequence of calls", "anchors": ["switss/utils/graph.pyx: Graph.__cinit__, add_successor, successors, predecessors, reachable, __dealloc__", "switss/utils/stack.pyx: push, pop, freestack", "switss/model/amdp.py: successors, predecessors, reachable_mask"]}
{"id": "C98", "title": "Computing maximal end components leaves no memory behind", "statement": "For every system with at least one state, each call of maximal_end_components (and so the end component properties of systems and forms) accesses only allocated memory, frees nothing twice, answers as documented, and gives back every block it has taken.", "quantifier": "every matrix and index map with at least one state, random numbers, contents of fresh memory, sequence of calls, state of the memory before", "why_tests_cant": "leaks are invisible in the results; the number of blocks depends on the components, the edges between them and the order of the rounds", "anchors": ["switss/utils/graph.pyx: maximal_end_components, __strongly_connected_components, __strongconnect", "switss/utils/treaps.pyx: add_to_treap, split_treap, free_treap"]}
{"id": "C99", "title": "Probabilities and thresholds are not changed on the way", "statement": "The probabilities that system.successors and system.predecessors report are those of the matrix, and TreeAlgo decides about the threshold that was given: on the chains and partitions for which it is correct, a returned number is the size of a smallest subsystem with probability at least t. Where a number is converted to single precision, it is unchanged if it has at most 24 significant bits and changed by at most its 2^-24-th part (by 2^-150 below 2^-126) otherwise.", "quantifier": "every system, state, Markov chain, path partition, threshold above 2^-150 and upper bound", "why_tests_cant": "whether rounding changes an answer depends on all digits of thresholds and probabilities; tests use thresholds far from the values that subsystems have", "anchors": ["switss/utils/graph.pyx: SAPPair, add_successor, successors, predecessors", "switss/utils/tree_decomp.pyx: handle_subsys", "switss/problem/tree_algo.py: TreeAlgo.solve"]}
{"id": "C100", "title": "Subsystems found by solvers with tolerances", "statement": "The solvers are called with a feasibility and integrality tolerance eps of 1e-9, so that an answer may violate bounds, constraints and integrality by eps and miss the optimum by eps. Still, the subsystem of each success of MILPExact and QSHeur reaches the target with at least the threshold, the value reported by MILPExact is the number of states (label groups) of the smallest such subsystem, and infeasible is reported only if there is none.", "quantifier": "every model, smallest positive probability, threshold, mode, labels, back end, eps, and every answer of a solver within its tolerances", "why_tests_cant": "quantifies over all answers a solver may give within its tolerances; a test sees one answer of one solver version", "anchors": ["switss/solver/milp.py: MILP.from_coefficients, MILP.solve, GurobiMILP.__init__", "switss/problem/milpexact.py: MILPExact._solveiter", "switss/problem/qsheur.py: QSHeur._solveiter", "switss/problem/formulations.py: construct_MILP, compute_upper_bounds, add_indicator_constraints"]}
{"id": "C101", "title": "Reachability forms of systems of any size", "statement": "ReachabilityForm(system, ...) and maximal_end_components work for systems with any number of states: the number of nested C calls, and so the room needed on the stack, does not grow with the number of states. A bound on the nested calls in terms of the number of states and the number of transitions per state is known.", "quantifier": "every system, number of states, random numbers of the treaps, content of fresh memory", "why_tests_cant": "quantifies over systems of every size; test models have a few states, and the stack of the test machine is not that of the user", "anchors": ["switss/utils/graph.pyx: strongconnect, strongly_connected_components, maximal_end_components", "switss/utils/treaps.pyx: in_treap, split_treap, insert, free_treap, fill_array", "switss/model/reachability_form.py: ReachabilityForm.__init__"]}
{"id": "C102", "title": "Default pictures show the model", "statement": "digraph() with the default functions, and switss render, return for every model whose labels can be looked up. Every state has one box with its number and all its labels, every action one box with its number and its labels, and every transition one edge with a decimal number that equals its probability up to 1/2*1e-10; there is nothing else. From the text of a box the number and the labels can be recovered (labels nonempty and without commas). States with the same labels have the same colour and others do not; with -col the colour depends on the given labels only. Positive probabilities do not look like zero.", "quantifier": "every MDP and DTMC with labels, state, transition, hash function, list of labels for the option -col", "why_tests_cant": "quantifies over all models, probabilities and label sets; tests of pictures look at single ones", "anchors": ["switss/utils/graphviz_utils.py: color_from_hash, std_state_map, std_trans_map_mdp, std_trans_map_dtmc, std_action_map", "switss/model/mdp.py: digraph", "switss/model/dtmc.py: digraph", "bin/switss: renderargs"]}
{"id": "C103", "title": "Probabilities computed by solvers with tolerances", "statement": "The solvers that compute pr_min, pr_max, max_z_state_action and max_y_state_action may violate each constraint by eps (1e-9) and miss the optimum by eps. Still, they cannot call the problem infeasible or unbounded, and the returned numbers differ from the minimal and maximal probabilities (from the one-step lookahead; the flow into the target from the maximal probability) by at most a multiple of eps that does not depend on the probabilities in the model.", "quantifier": "every model, initial and target label, smallest positive probability, eps, and every answer of a solver within its tolerances", "why_tests_cant": "quantifies over all answers a solver may give within its tolerances, and over models whose probabilities are arbitrarily close to 0 and 1; a test sees one answer of one solver version on one model", "anchors": ["switss/model/reachability_form.py: max_z_state, max_z_state_action, max_y_state_action, pr_min, pr_max", "switss/solver/lp.py: LP.from_coefficients, LP.solve", "switss/solver/milp.py: MILP.from_coefficients, MILP.add_constraint, MILP.solve"]}
{"id": "C104", "title": "Answers for different problems fit together", "statement": "Two calls of the exact method on the same model agree: for the same problem they report the same value whatever solvers and back ends they use, and never success here and infeasible there. For mode max instead of min, a smaller threshold or fewer labels the value does not grow and infeasible is not answered if the harder problem has a success. The heuristic never reports less than the exact method and (with the initializers and updaters of the library and positive weights) is not infeasible when the exact method succeeds. In chains both modes, and the tree algorithm, give the same value. Minimizing inside a subsystem gives no smaller value, and minimizing inside the subsystem of a success, once built, gives the same value again.", "quantifier": "every model, pair of thresholds, modes, lists of labels, back ends, sound solvers, initializers and updaters", "why_tests_cant": "relates all pairs of calls with all solver answers; a test compares two answers of one solver on one model", "anchors": ["switss/problem/milpexact.py: MILPExact", "switss/problem/qsheur.py: QSHeur", "switss/problem/tree_algo.py: TreeAlgorithm", "switss/problem/problemform.py: solve, solveiter", "switss/problem/subsystem.py: Subsystem.subsys"]}
{"id": "C105", "title": "Subsystems of results can be built", "statement": "The attribute subsys of the subsystem in a successful result returns a system and a reachability form, that is, its consistency checks do not fail. In general it returns if and only if every selected state lies on a path from the initial state to the target within the selected states.", "quantifier": "every model, certificate, mode, threshold, list of labels, method and sound solver", "why_tests_cant": "the certificate is chosen by the solver among many optimal ones; a test sees one of them", "anchors": ["switss/problem/subsystem.py: Subsystem.__init__, subsystem_mask, subsys", "switss/problem/milpexact.py: MILPExact", "switss/problem/qsheur.py: QSHeur", "switss/model/reachability_form.py: __init__, assert_consistency"]}
{"id": "C106", "title": "Results for a reduced reward model speak about the original model", "statement": "What the exact method and the heuristic answer for the form made by RewardReachabilityForm.reduce holds in the model that was reduced: the states selected by a success, translated back with the returned state map, are states of the original model inside of which an expected reward of at least the threshold is collected (counted up to and including the action in the first target state); for the exact method no smaller set of states (no set with fewer labels) collects as much; infeasible means that no set of states does. With exact solvers the answer is success exactly if the minimal (maximal) expected reward of the original model is at least the threshold.", "quantifier": "every model with rewards, threshold, mode (max: with labels, for the exact method), list of labels, sound solver, initializer and updater", "why_tests_cant": "quantifies over all sets of states of the original model and all schedulers; tests look at the reduced model only", "anchors": ["switss/model/reward_reachability_form.py: reduce, fark_constraints", "switss/model/reachability_form.py: reduce", "switss/problem/milpexact.py: MILPExact", "switss/problem/qsheur.py: QSHeur", "switss/problem/problemform.py: solveiter"]}
{"id": "C107", "title": "Results can be printed and shown", "statement": "repr of a result and of the subsystem in it return a text, for reachability forms and reward forms. The text of a success of the exact method shows the labels of the form, the numbers of rows and states of the system, the number of selected states (as the value, and with 2 added as the number of states of the subsystem) and how many states carry each label; the text of another result shows its status and None. subsys and digraph of the subsystem return for reward forms, too.", "quantifier": "every model with and without rewards, certificate, mode, threshold, list of labels, method and solver", "why_tests_cant": "whether a text exists depends on the certificate the solver chose and on the kind of form; tests print a few results of reachability forms at most", "anchors": ["switss/problem/problemresult.py: __repr__", "switss/problem/subsystem.py: subsys, subsystem_mask, digraph, __repr__", "switss/model/reachability_form.py: __repr__", "switss/model/amdp.py: __repr__", "switss/model/reward_reachability_form.py: __init__"]}
{"id": "C108", "title": "Results are reproducible", "statement": "Two runs of the same program on the same model give the same: the end components are the same sets, their number and which of them are proper agree; constructing a reachability form or reducing a model raises the same exceptions and gives forms that answer every question alike (matrices, constraints, linear programs, checks and generation of certificates, end components of states, texts); the exact method and the heuristic yield the same results (statuses, values, certificates, subsystems, pictures) for a solver that answers the same program alike, also for reward forms; the commands rf, minimize, certify and subsystem print and write the same. The numbers that state_to_mec gives to the end components agree, too.", "quantifier": "every model, pair of random seeds (and contents of uninitialised memory), labels, threshold, mode, method, certificate, files", "why_tests_cant": "the end components are computed with random numbers seeded by the time; a test sees two seeds at most, and the effect of other numbers on all later answers is not observed", "anchors": ["switss/utils/graph.pyx: maximal_end_components", "switss/utils/treaps.pyx: new_heap_key, treap_to_arr", "switss/model/reachability_form.py: __init__, reduce, state_to_mec, nr_of_mecs, nr_of_proper_mecs, in_proper_ec", "switss/problem/milpexact.py: MILPExact", "switss/problem/qsheur.py: QSHeur", "switss/problem/subsystem.py: Subsystem", "bin/switss: rf, minimize, certify, subsystem"]}
{"id": "C109", "title": "Only the behaviour of a model matters", "statement": "Two models that differ in the numbers of states and actions, in the order of rows, in actions given twice, in additional states that are not reached, in what is done in target states, in the names of the initial and target labels and in labels that are not used are treated alike: reduce succeeds on the one if it succeeds on the other one and keeps corresponding states; pr_min and pr_max give the same numbers for corresponding states; check_farkas_certificate accepts some non-negative vector for the one exactly if it accepts one for the other (all properties but upper bounds on the minimal probability); the exact method reports the same value and never success for the one and infeasible for the other, whatever solvers and back ends are used; the heuristic on the one is never below the exact method on the other. The same holds for reward models, if the actions give the same rewards.", "quantifier": "every pair of models and correspondence of their states, threshold, mode, list of labels, sound solvers, random numbers", "why_tests_cant": "relates all pairs of presentations of a model; a test compares one or two renumberings of one model", "anchors": ["switss/model/reachability_form.py: reduce, pr_min, pr_max", "switss/model/reward_reachability_form.py: reduce", "switss/certification/certificates.py: check_farkas_certificate", "switss/problem/milpexact.py: MILPExact", "switss/problem/qsheur.py: QSHeur"]}
{"id": "C110", "title": "Answers respond to changes of the model in the right direction", "statement": "If a model gets more targets and, in maximal mode, more actions or, in minimal mode, fewer actions, then no extremal probability falls (also inside sets of states); the value of the exact method does not grow, a success does not become infeasible, and with exact solvers stays a success; the heuristic on the old model is never below the exact method on the new one; a lower bound that can be certified remains so, and an upper bound on the maximal probability that can be certified for the new model can be certified for the old one; in maximal mode reduce does not start to fail. If actions give larger rewards, or targets are removed, expected rewards do not fall and the exact method for rewards does not report a larger value. If all rewards and the threshold are multiplied by the same positive number, expected rewards are multiplied by it and the exact method reports the same value.", "quantifier": "every pair of models so related, threshold, mode, list of labels, sound solvers, factor", "why_tests_cant": "relates all pairs of models; tests look at single models with known answers", "anchors": ["switss/model/reachability_form.py: reduce", "switss/model/reward_reachability_form.py: reduce", "switss/certification/certificates.py: check_farkas_certificate", "switss/problem/milpexact.py: MILPExact", "switss/problem/qsheur.py: QSHeur"]}
{"id": "C111", "title": "The JSON files of the command line tool are read for what they say", "statement": "The mapping file written by rf is valid JSON made of printable ASCII characters; its four lists, read back and put side by side, are exactly the state-action map of the reduction. certify and subsystem treat every text of a certificate file (any white space, any order of the entries, further entries, numbers with or without fraction or exponent, repeated keys of which the last counts) like the numbers it denotes; a text that is not JSON yields no verdict and an exception. The text that json.dump writes for certificates is read back as exactly the same numbers, iterations and mode, provided that repr of a float is exact.", "quantifier": "every text, every nested value with distinct keys, every string of characters, model file, label, certificate", "why_tests_cant": "quantifies over all texts and all values; tests read files that the same program wrote", "anchors": ["bin/switss: rfargs, minargs, unpack_results, certargs, subsysargs"]}
{"id": "C112", "title": "Expected rewards computed by solvers with tolerances", "statement": "The solvers that compute rew_min, rew_max, max_z_state_action and max_y_state_action of a reward form may violate each constraint by eps (1e-9) and miss the optimum by eps. Still, they cannot call the problem infeasible or unbounded, and the returned numbers differ from the minimal and maximal expected rewards (from the one-step lookahead) by at most eps*(1+N*N/p^N), where N is the number of states and p the smallest positive probability of the form, whatever the rewards are; the reward collected by the flow of max_y_state_action differs from the maximal expected reward by at most eps*(1+(N+C)*B), where C is the number of rows and B the largest expected reward. The factor cannot be dropped: a chain with expected reward 1 may get 2 from rew_min and 0 from rew_max.", "quantifier": "every model with rewards that can be reduced, smallest positive probability, eps, and every answer of a solver within its tolerances", "why_tests_cant": "quantifies over all answers a solver may give within its tolerances, and over models whose probabilities are arbitrarily close to 0 and 1; a test sees one answer of one solver version on one model", "anchors": ["switss/model/reward_reachability_form.py: max_z_state, max_z_state_action, max_y_state_action, rew_min, rew_max", "switss/solver/lp.py: LP.from_coefficients, LP.solve", "switss/solver/milp.py: MILP.from_coefficients, MILP.add_constraint, MILP.solve"]}
{"id": "C113", "title": "The command line tool touches the files it should touch and no others", "statement": "A command changes only files named by its output paths (rf: the form and the mapping file at -o or modelpath-rf; minimize: the file -c or modelpath.certificates.json; subsystem: -o or modelpath-subsys, followed by -<iteration>), whatever happens; certify and info change nothing. What a command prints, how it ends and what it writes depends only on the files it reads. With the default output paths (and unless -o or -c name them) the files of the model are kept. rf stores all of its three files or, if it fails, none; minimize stores the certificates it found; subsystem stores one model for every certificate. rf in place works once. A missing file is reported as such and nothing is changed. After rf and any further commands that do not write the form or the certificates, VALID printed by certify -tol 0 on the form is a bound for the original model.", "quantifier": "every disk, path, correspondence of paths to files, file that cannot be opened, session of commands, model, certificate file", "why_tests_cant": "quantifies over all contents of a disk and all sessions; tests run one command in a directory of their own", "anchors": ["bin/switss: load_model, rfargs, minargs, unpack_results, certargs, subsysargs, infoargs", "switss/model/amdp.py: from_file", "switss/model/dtmc.py: save", "switss/model/mdp.py: save"]}
{"id": "C114", "title": "The command line is understood as documented", "statement": "A command line made of the name of a command, the type of the model, its path and options of the command - in any order, in the short, the long or an unambiguously abbreviated spelling, with the argument in the next word, after = or (for one-letter options) immediately - runs that command with exactly these arguments, the last one if an option is given twice, and with the documented default values for all options that are not given. If there are not exactly two positional arguments, the type is not mdp or dtmc, or a tolerance is no number, or there is no command, a usage message is printed and no file is touched. No word that begins like an option is ignored: if the command runs, it begins like an option of that command, and the name of the command is the first word. With -h or --help, or with an argument given to an option that takes none, no command runs and no file is touched. Parsing never raises an exception.", "quantifier": "every list of words; every sequence of positional arguments and options, labels, paths, numbers; every disk", "why_tests_cant": "quantifies over all orders and spellings of all options; a test runs a handful of command lines", "anchors": ["bin/switss: parser, subparsers, args.func"]}
{"id": "C115", "title": "Probabilities and expected rewards are those of the runs of the model", "statement": "For every model, state and strategy (which may use chance and the whole past) there is exactly one probability measure on the infinite runs, and what the library reports is about this measure. pr_min and pr_max return the smallest and the largest probability that a run visits a target state; an accepted certificate for Pr_min >= t or Pr_max <= t bounds this probability for every strategy, an accepted non-negative one for Pr_max >= t or Pr_min <= t for some strategy. The states selected by a certificate of a reduced model, and the smallest set found by MILPExact, are such that a run of the original model visits a target, without leaving the selected states before, with probability at least t. rew_min and rew_max of a reduced reward model are the infimum and the supremum of the expectation of the reward that a run collects before it visits the target.", "quantifier": "all models, all states, all strategies, all sets of states, all accepted certificates and all solver answers that are right", "why_tests_cant": "a statement about an uncountable set of runs and all strategies; a test can at most sample runs of one model", "anchors": ["switss/model/reachability_form.py: pr_min, pr_max, reduce", "switss/model/reward_reachability_form.py: reduce, rew_min, rew_max", "switss/certification/certificates.py: check_farkas_certificate", "switss/problem/milpexact.py: _solveiter"]}
{"id": "C116", "title": "A time limit costs minimality, not correctness", "statement": "If a time limit stops the solver of MILPExact or QSHeur and the solver hands over the best solution it has so far as if it were optimal, every success is still right: the vector is a non-negative certificate that the checker accepts, the subsystem has at least the wanted probability (expected reward), in the reduced as well as in the original model, and the reported value is at least its size. An answer infeasible still means that there is no subsystem at all, for QSHeur in whichever iteration it comes, with any weights and any initial objective. Only minimality is lost, and the result does not show it: MILPExact may report success and the value 2 although one state suffices.", "quantifier": "every model, threshold, mode, labels, back end, number of iterations, and every answer of a solver that is feasible but not necessarily optimal", "why_tests_cant": "which solution a solver has when it is stopped depends on the machine and its load; a test cannot enumerate the solutions, nor tell one that is not minimal from one that is", "anchors": ["switss/problem/milpexact.py: _solveiter", "switss/problem/qsheur.py: _solveiter", "switss/problem/problemform.py: solve, solveiter", "switss/solver/milp.py: MILP.solve"]}
{"id": "C117", "title": "Models built from PRISM models are what PRISM exports", "statement": "MDP.from_prism_model(path, prism_constants, extra_labels) and DTMC.from_prism_model return exactly the system described by the two files that prism exports for the model file with these constants and additional labels: its states, choices, probabilities and labels. If prism fails, AssertionError is raised. The result depends on the text of the model file, the constants and the labels only, not on the names of temporary files or on other files. However the call ends, the model file is unchanged and no temporary file is left behind.", "quantifier": "every model file, constants, labels, names of temporary files, other files, and behaviour of prism", "why_tests_cant": "prism is an external program with arbitrary output; a test sees the exports of one version for a few models, and none for the files left behind when a call fails", "anchors": ["switss/model/amdp.py: from_prism_model, from_file", "switss/prism/prism.py: prism_to_tra"]}
{"id": "C118", "title": "Strategies can be read off the computed vectors", "statement": "A strategy follows a vector over state-action pairs if in every state it takes the actions with probabilities proportional to their entries. For every non-negative vector such a strategy exists, and the runs of every strategy that follows the vector behave as the vector promises: with an accepted certificate for Pr_max >= t they visit the target with probability at least t, even through states with positive entries only; with an accepted certificate for Pr_min <= t with probability at most t; with the result of max_y_state_action with the largest probability possible. A strategy (which may depend on the past) that takes only actions whose entry in max_z_state_action equals the entry of their state in pr_min has the smallest probability from all states, and conversely. A strategy that takes only actions that attain the entry of their state in pr_max has the largest probability from all states. The same holds for expected rewards.", "quantifier": "all models, certificates, optimal solutions, strategies that follow them, and all runs", "why_tests_cant": "quantifies over all strategies (uncountably many) and the measure of infinite runs; a test can only simulate finitely many steps of one strategy", "anchors": ["switss/model/reachability_form.py: max_z_state, max_z_state_action, max_y_state_action, pr_min, pr_max", "switss/model/reward_reachability_form.py: max_z_state, max_z_state_action, max_y_state_action, rew_max", "switss/certification/certificates.py: check_farkas_certificate, generate_farkas_certificate"]}
{"id": "C119", "title": "The check that a partition is a tree", "statement": "tree_decomp_from_partition_graphtool(rf.P, partition) returns without an exception exactly if the partition of the states of a Markov chain in reachability form is a tree: there is a part from which exactly one sequence of transitions between parts leads to each part. It raises AssertionError for every other partition. interface(ns1, ns2, P) returns the submatrix of P with the rows ns1 and the columns ns2.", "quantifier": "every Markov chain in reachability form and every partition of its states; all sets of states and matrices", "why_tests_cant": "quantifies over all graphs and partitions; whether exactly one sequence of transitions leads to a part is a statement about all sequences", "anchors": ["switss/utils/tree_decomp.pyx: is_tree, tree_decomp_from_partition_graphtool", "switss/utils/graph_utils.py: underlying_graph, quotient, interface"]}
{"id": "C120", "title": "construct_MILP returns the documented program", "statement": "construct_MILP(rf, threshold, mode, labels, relaxed, known_upper_bounds) minimises the sum of the indicators over the vectors that check_farkas_certificate accepts (without tolerance) and that are not negative: the variables that are not indicators are such a vector, each entry is at most its upper bound times each of its indicators, and the indicators are 0 or 1 (in the relaxed program between 0 and 1). There is one indicator for each state (relaxed: each entry) or for each label, and it governs exactly the entries of the state or of the states with the label. Every accepted non-negative vector belongs to a solution, exact or relaxed, so neither the upper bounds nor the relaxation lose a certificate; the optimal value of the exact program does not depend on the bounds, the back end or the solver; the optimal value of the relaxed program is not larger than that of the exact one; (None, None) is returned only if no vector is accepted. If known_upper_bounds are given, they are used.", "quantifier": "every model, threshold, mode, set of labels, vector of given bounds, back end and sound answers of the solver; every assignment of the variables", "why_tests_cant": "quantifies over all real assignments of the variables of the program and all accepted vectors; a test sees one optimal solution of a few programs", "anchors": ["switss/problem/formulations.py: construct_MILP, add_indicator_constraints, groups_from_labels, compute_upper_bounds, certificate_size", "switss/solver/milp.py: MILP.from_coefficients", "switss/certification/certificates.py: check_farkas_certificate"]}
{"id": "C121", "title": "Saved models have nearly the same probabilities", "statement": "save writes probabilities with six decimals. If the files can be loaded and all positive probabilities of the model are above half a unit of the sixth decimal, then in the loaded model, for every set of target states and every state, the minimal and maximal probability of reaching it differ from those of the saved model by at most a stated multiple of that half unit, and they are zero or one in the one model exactly if in the other; the multiple depends only on the number of states and the smallest probability. Generally, changing the numbers of a model without adding or removing transitions changes the probabilities by at most that much and never changes whether they are zero or one. For smaller probabilities a target reached with probability 3/4 may not be reached at all after loading.", "quantifier": "every model with exact row sums, every other model with the same transitions, all target sets and states, all files written and loaded", "why_tests_cant": "compares optima over all schedulers of two different models; tests compare a few transition entries after reloading", "anchors": ["switss/model/dtmc.py: DTMC.save", "switss/model/mdp.py: MDP.save", "switss/model/amdp.py: from_file"]}
{"id": "C122", "title": "switss render shows the model and changes no other file", "statement": "For every model that can be read from its two files, switss render hands a graph to graphviz that shows exactly its states, actions and transitions with their labels and probabilities; with -col, states that agree on the listed labels have the same colour. The text made by graphviz is stored in output.svg (by default modelpath-render.svg), and no other file changes. If a file is missing, the texts are no model or the output cannot be written, the command ends with an exception and changes nothing. Options may be given in any order and spelling.", "quantifier": "every model, disk, naming of files by paths, list of labels, behaviour of graphviz, and command line", "why_tests_cant": "the set of other files that must stay as they are is unbounded, and which file a path names depends on the machine; a test looks at one picture in an empty directory", "anchors": ["bin/switss: renderargs, load_model", "switss/model/mdp.py: MDP.digraph", "switss/model/dtmc.py: DTMC.digraph", "switss/utils/graphviz_utils.py"]}
{"id": "C123", "title": "Benchmark data are kept in files", "statement": "run(form, method, mode, ..., json_dir=dir) returns a dictionary that describes the method and the mode and has, for each threshold in turn, the values of all results (-1 for a failure) and the times at which they were obtained, until the thresholds are exhausted, a failure stops the run, or a threshold cannot be met. The file in dir named after the method and the mode then holds the same data: json.load returns them. No other file changes; without json_dir, and when the call raises, none changes; json_dir and debug have no influence on the data returned. With lists of methods and modes every pair has a file with its data afterwards.", "quantifier": "every method, mode, list of thresholds, stream of results and times, disk, and naming of files", "why_tests_cant": "quantifies over all result streams and all combinations of methods whose files might collide; a test looks at one file in an empty directory", "anchors": ["switss/benchmarks/benchmarks.py: run, print_json", "switss/problem/problemform.py: __repr__", "switss/problem/qsheur.py: details", "switss/problem/milpexact.py: details", "switss/problem/tree_algo.py: details"]}
{"id": "C124", "title": "Further iterations of the heuristic do not lose what was gained", "statement": "With the default updater InverseResultUpdater, an iteration of QSHeur does not report a larger subsystem than the iteration before, and no state that was removed comes back; so solve() with more iterations never returns a larger subsystem. (False of the code; what remains: the states that come back have, together, certificate values of at most the reported size times 1e-8, and if every positive value of the new certificate is larger than that, no state comes back and the size does not grow.)", "quantifier": "every model, threshold, initial objective of the library, number of iterations, back end and correct solver", "why_tests_cant": "the weights depend on the last solution, so the claim is about all sequences of linear programs and all optimal solutions a solver may choose; the failure needs probabilities around 1e-10", "anchors": ["switss/problem/qsheur.py: QSHeur._solveiter", "switss/problem/qsheurparams.py: InverseResultUpdater.update", "switss/problem/problemform.py: solve"]}
{"id": "C125", "title": "A repeated result means that the heuristic has converged", "statement": "With the default updater InverseResultUpdater (any positive weights) and a solver that answers the same problem in the same way, once two consecutive iterations of QSHeur report the same certificate, every later iteration reports the same certificate, subsystem and value, no exception is raised, there are as many results as iterations, and solve() returns this result. So the iterations can be stopped at the first repetition. More generally, if an iteration reports the certificate of any earlier iteration, the results in between are repeated periodically from then on.", "quantifier": "every model (probabilities and expected rewards), threshold, mode, set of labels, initial objective of the library, positive weights, number of iterations, back end and solver whose answers are correct; every position of the repetition", "why_tests_cant": "speaks about all later iterations of all runs; it needs that the certificate determines the other variables of every optimal solution, which a test cannot see", "anchors": ["switss/problem/qsheur.py: QSHeur._solveiter", "switss/problem/qsheurparams.py: InverseResultUpdater.update", "switss/solver/milp.py: MILP.set_objective_function, GurobiMILP.set_objective_function", "switss/problem/problemform.py: solve"]}
{"id": "C126", "title": "More iterations of the heuristic only append results", "statement": "For a solver that answers the same problem in the same way, the results of QSHeur(iterations=n) are the first results of QSHeur with more iterations, whatever initializer and updater are used. If the run with n iterations ended early, with an exception or with a failure, more iterations change nothing. Hence, with the default updater, once a certificate has repeated, solve() returns the same result for every number of iterations that includes the repetition.", "quantifier": "every form (probabilities and rewards), threshold, mode, labels, initializer, updater, back end, deterministic solver, and all pairs of numbers of iterations", "why_tests_cant": "compares two runs for all numbers of iterations; tests compare at most a few", "anchors": ["switss/problem/qsheur.py: QSHeur._solveiter", "switss/problem/problemform.py: solve, solveiter"]}
