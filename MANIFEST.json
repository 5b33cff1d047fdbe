{
 "claims": [
  {
   "property": "C01",
   "status": "proved",
   "theorems": [
    "Verif.Props.C01_invertible"
   ],
   "note": "invariant over every operation sequence on the model of InvertibleDict"
  },
  {
   "property": "C02",
   "status": "proved",
   "theorems": [
    "Verif.Props.C02_effects"
   ],
   "note": "effect of every operation on both views, for every history"
  },
  {
   "property": "C03",
   "status": "proved",
   "theorems": [
    "Verif.Props.C03_treap_set",
    "Verif.Props.C03_insert"
   ],
   "note": "for every insertion sequence and every outcome of rand()"
  },
  {
   "property": "C04",
   "status": "proved",
   "theorems": [
    "Verif.Props.C04_neighbours",
    "Verif.Props.C04_build_iff",
    "Verif.Props.C04_single",
    "Verif.Props.C04_system"
   ],
   "note": "for every matrix and index for which the graph is constructed; construction succeeds iff entries are in range; the `_system` theorem states it for every system accepted by the MDP or DTMC constructor; C04_single adds the conversion of the probabilities to single precision, which the other theorems leave out"
  },
  {
   "property": "C05",
   "status": "proved",
   "theorems": [
    "Verif.Props.C05_reachable",
    "Verif.Props.C05_empty",
    "Verif.Props.C05_system",
    "Verif.Props.C05_system_empty"
   ],
   "note": "termination within n pops and exact reachability; any iteration order; the `_system` theorem states it for every system accepted by the MDP or DTMC constructor"
  },
  {
   "property": "C06",
   "status": "proved",
   "theorems": [
    "Verif.Props.C06_scc"
   ],
   "note": "Tarjan invariant; cdef function only - the public method AbstractMDP.strongly_connected_components always fails with AttributeError (DESIGN.md findings)"
  },
  {
   "property": "C07",
   "status": "proved",
   "theorems": [
    "Verif.Props.C07_mec",
    "Verif.Props.C07_system"
   ],
   "note": "for every graph with a node and every random run; the `_system` theorem states it for every system accepted by the MDP or DTMC constructor"
  },
  {
   "property": "C08",
   "status": "proved",
   "theorems": [
    "Verif.Props.C08_proper",
    "Verif.Props.C08_actionless",
    "Verif.Props.C08_system"
   ],
   "note": "under the stated hypothesis that every state has a transition; C08_actionless shows the hypothesis is needed; the `_system` theorem states it for every system accepted by the MDP or DTMC constructor"
  },
  {
   "property": "C09",
   "status": "proved",
   "theorems": [
    "Verif.Props.C09_mdp",
    "Verif.Props.C09_mdp_content",
    "Verif.Props.C09_dtmc",
    "Verif.Props.C09_dtmc_default",
    "Verif.Props.C09_dtmc_nonsquare"
   ],
   "note": "accepts exactly the well-formed tables (MDP, DTMC with and without index); exact arithmetic; how rejected inputs are reported is stated too"
  },
  {
   "property": "C10",
   "status": "partial",
   "theorems": [
    "Verif.Props.C10_rounded",
    "Verif.Props.C10_roundtrip_partial",
    "Verif.Props.C10_false"
   ],
   "note": "False in general: numbers are written with six decimals, so a row of three 1/3 reloads with AssertionError (C10_false). C10_rounded characterises exactly when loading succeeds (the rounded rows sum to one) and what is then loaded (same states and labels, every probability rounded to six decimals, ties to even; rewards lost). C10_roundtrip_partial: identical probabilities if they are multiples of 10^-6. Label names with quotes or line breaks are excluded (C12_false). Numbers are exact, not doubles."
  },
  {
   "property": "C11",
   "status": "partial",
   "theorems": [
    "Verif.Props.C11_rounded",
    "Verif.Props.C11_roundtrip_partial",
    "Verif.Props.C11_false"
   ],
   "note": "As C10 (C11_false, C11_rounded, C11_roundtrip_partial); includes the index being a bijection onto the rows, numbered by the first appearance of the row among the stored entries. Action labels and rewards are not saved."
  },
  {
   "property": "C12",
   "status": "partial",
   "theorems": [
    "Verif.Props.C12_roundtrip_partial",
    "Verif.Props.C12_unclean",
    "Verif.Props.C12_false"
   ],
   "note": "Proved for all label maps (after any history of changes) whose label names contain no quote and no line break (C12_roundtrip_partial). Other names can never be read back from any file (C12_unclean); concrete silent corruption in C12_false."
  },
  {
   "property": "C13",
   "status": "proved",
   "theorems": [
    "Verif.Props.C13_reduce_again",
    "Verif.Props.C13_reduce_consistent",
    "Verif.Props.C13_reduce_returns",
    "Verif.Props.C13_reduce_unreachable",
    "Verif.Props.C13_actionless_target_false"
   ],
   "note": "systems in which every state has an action; C13_actionless_target_false shows that the claim fails for target states without actions, which reduce drops"
  },
  {
   "property": "C14",
   "status": "proved",
   "theorems": [
    "Verif.Props.C14_reduce_probabilities"
   ],
   "note": "history dependent randomised schedulers, any ordered field of numbers embedded in the reals"
  },
  {
   "property": "C15",
   "status": "proved",
   "theorems": [
    "Verif.Props.C15_reduce_matrix"
   ],
   "note": ""
  },
  {
   "property": "C16",
   "status": "proved",
   "theorems": [
    "Verif.Props.C16_reduce_maps"
   ],
   "note": ""
  },
  {
   "property": "C17",
   "status": "proved",
   "theorems": [
    "Verif.Props.C17_reduce_labels"
   ],
   "note": "action labels for MDPs (a DTMC has none)"
  },
  {
   "property": "C18",
   "status": "proved",
   "theorems": [
    "Verif.Props.C18_fark_z",
    "Verif.Props.C18_fark_y"
   ],
   "note": "for every call history on one object (cache modelled with aliasing); iff with the documented polytopes, stated on the system's own matrix"
  },
  {
   "property": "C19",
   "status": "partial",
   "theorems": [
    "Verif.Props.C19_false",
    "Verif.Props.C19_other_partial"
   ],
   "note": "false of the code: the cached right-hand side is mutated in place (C19_false); C19_other_partial: only systems of the same kind are affected"
  },
  {
   "property": "C20",
   "status": "proved",
   "theorems": [
    "Verif.Props.C20_min_ge_sound",
    "Verif.Props.C20_min_gt_sound"
   ],
   "note": "every RF built with consistency checks, any ordered field of numbers; history dependent randomised schedulers"
  },
  {
   "property": "C21",
   "status": "proved",
   "theorems": [
    "Verif.Props.C21_max_le_sound",
    "Verif.Props.C21_max_lt_sound"
   ],
   "note": "every RF built with consistency checks"
  },
  {
   "property": "C22",
   "status": "partial",
   "theorems": [
    "Verif.Props.C22_max_ge_sound_partial",
    "Verif.Props.C22_max_gt_sound_partial",
    "Verif.Props.C22_false"
   ],
   "note": "false of the code for vectors with negative entries, which check_farkas_certificate does not reject (C22_false); proved for non-negative y"
  },
  {
   "property": "C23",
   "status": "partial",
   "theorems": [
    "Verif.Props.C23_min_le_sound_partial",
    "Verif.Props.C23_min_lt_sound_partial",
    "Verif.Props.C23_false"
   ],
   "note": "false of the code for vectors with negative entries (C23_false); proved for non-negative y"
  },
  {
   "property": "C24",
   "status": "proved",
   "theorems": [
    "Verif.Props.C24_min_complete",
    "Verif.Props.C24_max_complete"
   ],
   "note": "exact arithmetic, any ordered field of numbers embedded in the reals"
  },
  {
   "property": "C25",
   "status": "partial",
   "theorems": [
    "Verif.Props.C25_max_complete",
    "Verif.Props.C25_min_complete_partial",
    "Verif.Props.C25_min_false",
    "Verif.Props.C25_min_certificates_partial",
    "Verif.Props.C25_min_initial_partial"
   ],
   "note": "max case proved. Min case: false when the minimal scheduler has to enter an end component (C25_min_false); proved without proper end components (C25_min_complete_partial) and characterised exactly in general: non-negative certificates exist iff some scheduler meets the bound and never enters an end component (C25_min_certificates_partial, C25_min_initial_partial)"
  },
  {
   "property": "C26",
   "status": "partial",
   "theorems": [
    "Verif.Props.C26_tolerance_z_partial",
    "Verif.Props.C26_tolerance_y_partial",
    "Verif.Props.C26_false"
   ],
   "note": "false as a uniform claim: with the default tolerance a wrong statement is accepted (C26_false). Proved: the error is at most tol*(1 + N/eps^N) with N states and eps the smallest positive probability, for certificates of Pr_min>= and Pr_max<= (C26_tolerance_z_partial), and at most tol*N for non-negative certificates of Pr_max>= and Pr_min<= (C26_tolerance_y_partial)"
  },
  {
   "property": "C27",
   "status": "partial",
   "theorems": [
    "Verif.Props.C27_generate_valid",
    "Verif.Props.C27_generate_complete_partial",
    "Verif.Props.C27_min_le_false"
   ],
   "note": "soundness proved for every solver; completeness proved except for Pr_min <= with proper end components, where the wrong variables are forced to zero (C27_min_le_false)"
  },
  {
   "property": "C28",
   "status": "proved",
   "theorems": [
    "Verif.Props.C28_pr_min"
   ],
   "note": "LP built by the model of the MILP wrapper; solver parameter assumed to return an optimum; any ordered field of numbers embedded in the reals"
  },
  {
   "property": "C29",
   "status": "proved",
   "theorems": [
    "Verif.Props.C29_pr_max"
   ],
   "note": "as C28"
  },
  {
   "property": "C30",
   "status": "proved",
   "theorems": [
    "Verif.Props.C30_max_y"
   ],
   "note": "as C28"
  },
  {
   "property": "C31",
   "status": "partial",
   "theorems": [
    "Verif.Props.C31_max_y_state_partial",
    "Verif.Props.C31_false",
    "Verif.Props.C31_reward_max_y_state_partial"
   ],
   "note": "false at the initial state, where the code adds 1 (C31_false); proved at all other states together with the exact value at the initial one"
  },
  {
   "property": "C32",
   "status": "proved",
   "theorems": [
    "Verif.Props.C32_max_z_state_action"
   ],
   "note": "as C28"
  },
  {
   "property": "C33",
   "status": "partial",
   "theorems": [
    "Verif.Props.C33_from_coefficients",
    "Verif.Props.C33_real_exact",
    "Verif.Props.C33_binary_bounds_false"
   ],
   "note": "true for domain real with explicit bounds given as coefficients; binary variables do not honour bounds (C33_binary_bounds_false)"
  },
  {
   "property": "C34",
   "status": "partial",
   "theorems": [
    "Verif.Props.C34_gurobi",
    "Verif.Props.C34_pulp_first_partial",
    "Verif.Props.C34_pulp_later",
    "Verif.Props.C34_pulp_false"
   ],
   "note": "true for gurobi; false for pulp after the first call (C34_pulp_false)"
  },
  {
   "property": "C35",
   "status": "partial",
   "theorems": [
    "Verif.Props.C35_gurobi",
    "Verif.Props.C35_pulp_false",
    "Verif.Props.C35_add",
    "Verif.Props.C35_live_constraints",
    "Verif.Props.C35_remove"
   ],
   "note": "Proved for gurobi after any history: the feasible set is given by exactly the constraints added and not removed (C35_live_constraints), removal succeeds exactly for live handles, with IndexError/TypeError otherwise (C35_remove). Removal raises KeyError for pulp (C35_pulp_false); adding constraints proved for both."
  },
  {
   "property": "C36",
   "status": "partial",
   "theorems": [
    "Verif.Props.C36_fresh",
    "Verif.Props.C36_denote",
    "Verif.Props.C36_backends_differ_false",
    "Verif.Props.C36_lp_add_variables_false"
   ],
   "note": "handles are fresh and denote the added variable for every history; back ends treat repeated variables differently (C36_backends_differ_false), LP.add_variables ignores its bounds/domain contract (C36_lp_add_variables_false)"
  },
  {
   "property": "C37",
   "status": "proved",
   "theorems": [
    "Verif.Props.C37_reward",
    "Verif.Props.C37_reward_computed",
    "Verif.Props.C37_bounds",
    "Verif.Props.C37_infeasible",
    "Verif.Props.C37_bounded",
    "Verif.Props.C37_one_positive_z",
    "Verif.Props.C37_one_positive_y",
    "Verif.Props.C37_min",
    "Verif.Props.C37_max",
    "Verif.Props.C37_computed"
   ],
   "note": "For every system with at most one positive entry per row (square case) or arbitrary (non-square case), and the Farkas systems of every ReachabilityForm and of every reward form made by reduce are shown to be of that kind; a solver that solves its LPs always yields optimal bounds or infeasible for EC-free forms (C37_computed) and for reward forms (C37_reward_computed)."
  },
  {
   "property": "C38",
   "status": "proved",
   "theorems": [
    "Verif.Props.C38_min",
    "Verif.Props.C38_returns",
    "Verif.Props.C38_feasible_iff"
   ],
   "note": "Answers of any sound solver are correct for every ReachabilityForm and back end (C38_min); with a solver that solves its problems and the pulp back end exactly one answer is given (C38_returns), a success iff a witness exists (C38_feasible_iff). Competing subsystems: every subsystem the Subsystem class can build from any vector. Assumes that the initial state is not the target; the call raises otherwise."
  },
  {
   "property": "C39",
   "status": "proved",
   "theorems": [
    "Verif.Props.C39_max",
    "Verif.Props.C39_returns",
    "Verif.Props.C39_feasible_iff",
    "Verif.Props.C39_not_ec_free"
   ],
   "note": "As C38, for EC-free forms; with a proper end component every call raises (C39_not_ec_free)."
  },
  {
   "property": "C40",
   "status": "proved",
   "theorems": [
    "Verif.Props.C40_labels",
    "Verif.Props.C40_returns",
    "Verif.Props.C40_target_label"
   ],
   "note": "As C38/C39 for any list of labels, counting distinct labels. A label on the goal or fail state never gives a success (C40_target_label)."
  },
  {
   "property": "C41",
   "status": "proved",
   "theorems": [
    "Verif.Props.C41_sound",
    "Verif.Props.C41_value",
    "Verif.Props.C41_infeasible",
    "Verif.Props.C41_feasible_iff"
   ],
   "note": "C41_sound: every success, for arbitrary initial objective, updater, iteration count, labels, back end and any solver that does not lie in any call. C41_value: with the initializers and updaters of the library (positive weights) the reported value is exactly the size of the certificate; in max mode without labels this counts state-action pairs. C41_infeasible, C41_feasible_iff: infeasible is reported exactly if there is no witnessing subsystem."
  },
  {
   "property": "C42",
   "status": "proved",
   "theorems": [
    "Verif.Props.C42_protocol",
    "Verif.Props.C42_solve",
    "Verif.Props.C42_returns"
   ],
   "note": "C42_protocol: shape of the results without any assumption on solver and updater (an exception raised by an updater may also end the run). C42_returns: with solvers that solve every LP either one 'infeasible' or exactly n successes, no exception. Uses a proof that feasible bounded linear programs attain their optimum (Theory/LP.lean)."
  },
  {
   "property": "C43",
   "status": "proved",
   "theorems": [
    "Verif.Props.C43_fixed_zeros"
   ],
   "note": "C43_fixed_zeros: values never increase, removed entries resp. labels never come back, never unbounded, infeasible only as the single result; positive weights."
  },
  {
   "property": "C44",
   "status": "proved",
   "theorems": [
    "Verif.Props.C44_inverse_result",
    "Verif.Props.C44_returns",
    "Verif.Props.C44_weights_false",
    "Verif.Props.C44_positive"
   ],
   "note": "C44_inverse_result for the default weights; C44_weights_false: with user weights the claim about the largest weight and the bound 1e9 fail, as the code does not apply the weight to removed groups; C44_positive holds for all positive weights."
  },
  {
   "property": "C45",
   "status": "proved",
   "theorems": [
    "Verif.Props.C45_min_ge",
    "Verif.Props.C45_min_gt",
    "Verif.Props.C45_max_ge",
    "Verif.Props.C45_max_gt",
    "Verif.Props.C45_returns",
    "Verif.Props.C45_default_checks_false"
   ],
   "note": "Every accepted certificate (for max: non-negative, see C22) gives a subsystem with at least its value, for both senses and modes; without the checks .subsys returns whenever t > 0 (C45_returns). With the default checks .subsys can raise for a valid certificate: C45_default_checks_false."
  },
  {
   "property": "C46",
   "status": "proved",
   "theorems": [
    "Verif.Props.C46_le",
    "Verif.Props.C46_monotone"
   ],
   "note": "For every kept state and every vector, min and max; plus monotonicity in the set of selected states."
  },
  {
   "property": "C47",
   "status": "proved",
   "theorems": [
    "Verif.Props.C47_construction",
    "Verif.Props.C47_again",
    "Verif.Props.C47_returns"
   ],
   "note": "States, actions, probabilities, labels, goal and fail rows, row sums; C47_again: the result can be processed again; C47_returns: exactly when .subsys returns (without checks)."
  },
  {
   "property": "C48",
   "status": "partial",
   "theorems": [
    "Verif.Props.C48_lost_false",
    "Verif.Props.C48_transposed_partial",
    "Verif.Props.C48_false"
   ],
   "note": "False of the code: the dictionary of action labels is built the wrong way round, so actions_by_label of a subsystem is always empty (C48_lost_false, C48_false). C48_transposed_partial says what the dictionary holds."
  },
  {
   "property": "C49",
   "status": "partial",
   "theorems": [
    "Verif.Props.C49_last_partial",
    "Verif.Props.C49_tree_timeout_false",
    "Verif.Props.C49_tree_infeasible_false",
    "Verif.Props.C49_tree_partial",
    "Verif.Props.C49_tree_bound_partial"
   ],
   "note": "Proved for MILPExact and QSHeur; false for TreeAlgo (C49_tree_timeout_false: timeout reported as success with value -1; C49_tree_infeasible_false: type error)."
  },
  {
   "property": "C50",
   "status": "proved",
   "theorems": [
    "Verif.Props.C50_finite",
    "Verif.Props.C50_rew_min",
    "Verif.Props.C50_rew_max",
    "Verif.Props.C50_max_y",
    "Verif.Props.C50_max_z_state_action"
   ],
   "note": "For every form returned by reduce: expected rewards are finite and the target is reached almost surely (C50_finite); every optimum of the LP of max_z_state/rew_min and of rew_max equals the minimal/maximal expected reward of the system of the form (C50_rew_min, C50_rew_max); the value of max_y_state_action is the maximal expected reward (C50_max_y). Semantics: suprema/infima over all history-dependent randomised schedulers."
  },
  {
   "property": "C51",
   "status": "partial",
   "theorems": [
    "Verif.Props.C51_inclusive",
    "Verif.Props.C51_shift_partial",
    "Verif.Props.C51_zero_partial",
    "Verif.Props.C51_finite",
    "Verif.Props.C51_returns_iff",
    "Verif.Props.C51_false"
   ],
   "note": "False as stated: the reward of the old target rows is counted once (C51_false). Proved: exactly which expected reward is kept (C51_inclusive), the shift by c if all target rows have reward c (C51_shift_partial), equality for c = 0 (C51_zero_partial), finiteness (C51_finite), and that reduce returns exactly if the target is reached almost surely under every scheduler (C51_returns_iff)."
  },
  {
   "property": "C52",
   "status": "partial",
   "theorems": [
    "Verif.Props.C52_raises",
    "Verif.Props.C52_never_returns"
   ],
   "note": "False: fromsystem raises AttributeError on every system, also on consistent ones (C52_never_returns and the example beside it). C52_raises: AttributeError exactly on the systems that pass the checks, AssertionError on all others."
  },
  {
   "property": "C53",
   "status": "proved",
   "theorems": [
    "Verif.Props.C53_run",
    "Verif.Props.C53_increasing",
    "Verif.Props.C53_success",
    "Verif.Props.C53_many"
   ],
   "note": "For every method, i.e. every function from thresholds to result lists (status, value), and every threshold range; times are only counted. Exact arithmetic for the grid."
  },
  {
   "property": "C54",
   "status": "partial",
   "theorems": [
    "Verif.Props.C54_empty_partial",
    "Verif.Props.C54_raises",
    "Verif.Props.C54_call",
    "Verif.Props.C54_never",
    "Verif.Props.C54_ignored",
    "Verif.Props.C54_false"
   ],
   "note": "False of the code (C54_false: the documented {'N': 2} raises ValueError): the loop unpacks the keys instead of the items. C54_raises characterises the failures, C54_never shows that no non-empty dictionary is passed correctly, C54_call gives the call that is made instead (names split into two characters), C54_ignored shows that the values are never used; the property holds for the empty dictionary (C54_empty_partial)."
  },
  {
   "property": "C55",
   "status": "partial",
   "theorems": [
    "Verif.Props.C55_iff_partial",
    "Verif.Props.C55_single_partial",
    "Verif.Props.C55_false"
   ],
   "note": "False of the code (C55_false): the iterator lets every digit run up to the number of points inclusively (reading one point past the end) while the number of rounds is the product of the sizes. C55_iff_partial gives the exact condition under which the enumeration is right; C55_single_partial covers one successor."
  },
  {
   "property": "C56",
   "status": "partial",
   "theorems": [
    "Verif.Props.C56_transitions_partial",
    "Verif.Props.C56_shifted",
    "Verif.Props.C56_false"
   ],
   "note": "False of the code (C56_false, for every model with a choice): labels of choice i go to state N+i+1 (C56_shifted). States, transitions, index and state labels are right (C56_transitions_partial)."
  },
  {
   "property": "C57",
   "status": "proved",
   "theorems": [
    "Verif.Props.C57_verdict"
   ],
   "note": "combines C14 with C20-C23"
  },
  {
   "property": "C58",
   "status": "partial",
   "theorems": [
    "Verif.Props.C58_single",
    "Verif.Props.C58_shared",
    "Verif.Props.C58_adds",
    "Verif.Props.C58_unchanged_partial",
    "Verif.Props.C58_false",
    "Verif.Props.C58_two_models"
   ],
   "note": "False of the code (C58_false): the constructor copies the dictionary but shares its sets. C58_shared and C58_adds say exactly which sets of the caller change; C58_unchanged_partial: the caller's data is untouched when no label of the caller is extended; C58_two_models: two models built from the same dictionary influence each other."
  },
  {
   "property": "C59",
   "status": "proved",
   "theorems": [
    "Verif.Props.C59_load",
    "Verif.Props.C59_accepts"
   ],
   "note": "For every file content. Lines, fields and numbers are specified independently in Spec/Text.lean (signs, underscores between digits and blanks included). Negative destinations count from the end of the states. Outside the model (Err.outside): negative sources and actions, characters outside ASCII in numbers, inf and nan."
  },
  {
   "property": "C60",
   "status": "proved",
   "theorems": [
    "Verif.Props.C60_memoryless_min",
    "Verif.Props.C60_memoryless_max",
    "Verif.Props.C60_between"
   ],
   "note": "for every finite MDP and target set; history dependent randomised schedulers"
  },
  {
   "property": "C61",
   "status": "partial",
   "theorems": [
    "Verif.Props.C61_exact",
    "Verif.Props.C61_returns",
    "Verif.Props.C61_feasible_iff",
    "Verif.Props.C61_max_unlabelled",
    "Verif.Props.C61_max_raises",
    "Verif.Props.C61_timeout",
    "Verif.Props.C61_timeout_false"
   ],
   "note": "Proved in min mode, and in both modes with labels, provided the solver of the upper bounds gives a definite answer (C61_exact, C61_returns, C61_feasible_iff). False otherwise: without labels in max mode no call succeeds and the call raises AttributeError whenever the threshold can be met (C61_max_unlabelled, C61_max_raises); if the solver of the bounds times out, infeasible is answered for every threshold above 1 (C61_timeout, C61_timeout_false)."
  },
  {
   "property": "C62",
   "status": "proved",
   "theorems": [
    "Verif.Props.C62_sound",
    "Verif.Props.C62_returns"
   ],
   "note": "C62_sound: any initial objective, updater, mode, labels, back end, any solver that does not lie in any call. C62_returns: library initializers and updaters, solvers that solve every LP, pulp."
  },
  {
   "property": "C63",
   "status": "partial",
   "theorems": [
    "Verif.Props.C63_grid_partial",
    "Verif.Props.C63_aligned_partial",
    "Verif.Props.C63_one_false",
    "Verif.Props.C63_false"
   ],
   "note": "False of the code: threshold 1 is never run (C63_one_false) and the grid may exceed to_thr (C63_false). C63_grid_partial is the exact set of visited thresholds; C63_aligned_partial the property for aligned ranges below 1. Exact arithmetic."
  },
  {
   "property": "C64",
   "status": "partial",
   "theorems": [
    "Verif.Props.C64_states_partial",
    "Verif.Props.C64_laststates_partial",
    "Verif.Props.C64_empty",
    "Verif.Props.C64_short",
    "Verif.Props.C64_false"
   ],
   "note": "False of the code: runs ended by a timeout (C64_short, C64_false) or with nothing recorded (C64_empty) raise IndexError. Proved for runs whose entries have equally many results."
  },
  {
   "property": "C65",
   "status": "partial",
   "theorems": [
    "Verif.Props.C65_mdp_partial",
    "Verif.Props.C65_dtmc_false",
    "Verif.Props.C65_dtmc_matrix_partial"
   ],
   "note": "Proved for MDPs (C65_mdp_partial). DTMC.from_stormpy raises TypeError for every model (C65_dtmc_false) because DTMC.from_stormpy_model does not take choice_model; its matrix would be right (C65_dtmc_matrix_partial)."
  },
  {
   "property": "C66",
   "status": "partial",
   "theorems": [
    "Verif.Props.C66_path_partial",
    "Verif.Props.C66_returns_partial",
    "Verif.Props.C66_solve_partial",
    "Verif.Props.C66_loop_false",
    "Verif.Props.C66_detour_false",
    "Verif.Props.C66_keyerror_false",
    "Verif.Props.C66_reduced_rows",
    "Verif.Props.C66_original_partial",
    "Verif.Props.C66_rows_false"
   ],
   "note": "Exact arithmetic, with the linear solver and the hull pruning as parameters (assumptions LinOK, HullOK). C66_path_partial: on partitions whose quotient is a path, with target transitions only from the last part and no transition between two states where a part is entered, a returned number is the size of a smallest subsystem; C66_returns_partial: a number or a KeyError is returned when a subsystem within the bound exists; C66_solve_partial: the same for TreeAlgo.solve with a known bound. C66_original_partial: for a reduced Markov chain the number is the least size of a set of states of the original chain through which the target is reached with the required probability; the assumption that rows and states agree is proved there (C66_reduced_rows). False of the code otherwise: C66_rows_false (a chain built with its own index: rows are read as states), C66_loop_false (loops at entry states are counted twice, a number is returned for an infeasible problem), C66_detour_false (points below the threshold are dropped although other parts reach the target), C66_keyerror_false. Missing: quotients with branching; for these the code has undefined behaviour (C92_safe_iff_partial). The threshold is compared exactly here; C99 treats its conversion to single precision."
  },
  {
   "property": "C67",
   "status": "proved",
   "theorems": [
    "Verif.Props.C67_in_proper_ec",
    "Verif.Props.C67_state_to_mec",
    "Verif.Props.C67_nr_of_proper_mecs",
    "Verif.Props.C67_is_ec_free",
    "Verif.Props.C67_nr_of_mecs"
   ],
   "note": "End components are the graph-theoretic ones of the system (closed under the chosen actions and strongly connected); negative arguments of in_proper_ec are not modelled."
  },
  {
   "property": "C68",
   "status": "proved",
   "theorems": [
    "Verif.Props.C68_exceptions",
    "Verif.Props.C68_min_ge",
    "Verif.Props.C68_max_le",
    "Verif.Props.C68_max_ge",
    "Verif.Props.C68_min_le"
   ],
   "note": "C68_exceptions: exactly when the call raises and when it answers; C68_min_ge, C68_max_le, C68_max_ge, C68_min_le: acceptance in terms of the probabilities of the system, strict and non-strict. That the polytopes for max >= and min <= are too large (no sign condition) is the subject of C22 and C23."
  },
  {
   "property": "C69",
   "status": "partial",
   "theorems": [
    "Verif.Props.C69_min_ge_sound",
    "Verif.Props.C69_max_le_sound",
    "Verif.Props.C69_max_ge_sound_partial",
    "Verif.Props.C69_raises_partial",
    "Verif.Props.C69_complete_partial",
    "Verif.Props.C69_threshold_false",
    "Verif.Props.C69_min_le_false"
   ],
   "note": "Soundness for min >=, min >, max <=, max < (C69_min_ge_sound, C69_max_le_sound) and, for non-negative vectors, for max >=, max > (C69_max_ge_sound_partial); completeness for thresholds up to one (C69_complete_partial). False of the code: thresholds above one always raise AssertionError (C69_threshold_false), min with <= or < always raises AttributeError (C69_min_le_false). As in C51 the rewards include the action taken in the first target state."
  },
  {
   "property": "C70",
   "status": "partial",
   "theorems": [
    "Verif.Props.C70_reload_mdp_partial",
    "Verif.Props.C70_reload_dtmc",
    "Verif.Props.C70_reload_reduced",
    "Verif.Props.C70_subsystem_false"
   ],
   "note": "Proved for DTMCs (C70_reload_dtmc) and for the forms made by reduce (C70_reload_reduced). For MDPs C70_reload_mdp_partial decides it: accepted with the same values iff the stored entries mention the rows of target and fail last, otherwise AssertionError. False of the code for subsystems: every MDP made by Subsystem.subsys is rejected after saving and loading, since the entry of the fail row is stored first (C70_subsystem_false, for all subsystems). Only probabilities with at most six decimals and label names without quotes and line breaks (otherwise see C10-C12)."
  },
  {
   "property": "C71",
   "status": "partial",
   "theorems": [
    "Verif.Props.C71_reachability_weights",
    "Verif.Props.C71_empty_group_false",
    "Verif.Props.C71_frequency_weights_partial",
    "Verif.Props.C71_combined_weights_partial",
    "Verif.Props.C71_frequency_false"
   ],
   "note": "Proved for InverseReachabilityInitializer with non-empty groups (weights are exactly the capped inverse means, with the true minimal probabilities). False of the code for frequencies: a group that does not occur gets 1e8, less than a group with sum below 1e-8 (C71_frequency_false); a label without states raises ZeroDivisionError (C71_empty_group_false). The frequency theorems hold for any solver answer y."
  },
  {
   "property": "C72",
   "status": "proved",
   "theorems": [
    "Verif.Props.C72_accepts_iff",
    "Verif.Props.C72_rejects",
    "Verif.Props.C72_unknown_label"
   ],
   "note": "Exact characterisation with reachability and absorption stated over the transition probabilities; labels are assumed to name states of the system."
  },
  {
   "property": "C73",
   "status": "proved",
   "theorems": [
    "Verif.Props.C73_accepts_iff"
   ],
   "note": "Exact characterisation; end components are arbitrary sets of states and actions. Label map must know both labels."
  },
  {
   "property": "C74",
   "status": "proved",
   "theorems": [
    "Verif.Props.C74_dense",
    "Verif.Props.C74_vector",
    "Verif.Props.C74_other",
    "Verif.Props.C74_same_system",
    "Verif.Props.C74_mdp_from_lists"
   ],
   "note": "Acceptance stated directly over the lists (C74_mdp_from_lists); DTMC follows from C74_dense with C09_dtmc."
  },
  {
   "property": "C75",
   "status": "partial",
   "theorems": [
    "Verif.Props.C75_nine_decimals",
    "Verif.Props.C75_certify_sound_partial",
    "Verif.Props.C75_certify_tolerance_partial",
    "Verif.Props.C75_certify_verdicts",
    "Verif.Props.C75_certify_min",
    "Verif.Props.C75_certify_max",
    "Verif.Props.C75_mode_false",
    "Verif.Props.C75_certify_complete",
    "Verif.Props.C75_negative_false",
    "Verif.Props.C75_tolerance_false"
   ],
   "note": "Sound with -tol 0 (mode max only for non-negative certificates, C75_certify_sound_partial), up to tol*(1 + N/eps^N) otherwise; verdicts characterised exactly (C75_certify_min, C75_certify_max); complete. False of the code: negative entries are not rejected (C75_negative_false), the default tolerance 1e-5 lets a wrong bound through (C75_tolerance_false), and a file without a mode, the only kind minimize writes, ends in KeyError (C75_mode_false). Rows are assumed to sum to one exactly, which holds for files with at most nine decimals (C75_nine_decimals)."
  },
  {
   "property": "C76",
   "status": "partial",
   "theorems": [
    "Verif.Props.C76_rf_accepted",
    "Verif.Props.C76_certified_sound_partial",
    "Verif.Props.C76_mapping",
    "Verif.Props.C76_rf_returns",
    "Verif.Props.C76_certified_complete"
   ],
   "note": "Proved, including existence (C76_rf_returns), except that certify calls negative vectors VALID in mode max, so that C76_certified_sound_partial needs non-negative entries there. Files with at most six decimals."
  },
  {
   "property": "C77",
   "status": "partial",
   "theorems": [
    "Verif.Props.C77_minimize_false",
    "Verif.Props.C77_solve_false",
    "Verif.Props.C77_documented_false",
    "Verif.Props.C77_example_false"
   ],
   "note": "False of the code for every input: C77_minimize_false shows that no stored file ever contains a certificate; the documented call raises TypeError (C77_documented_false). No positive part is left to prove."
  },
  {
   "property": "C78",
   "status": "partial",
   "theorems": [
    "Verif.Props.C78_subsystem_false",
    "Verif.Props.C78_copy_false",
    "Verif.Props.C78_files_partial",
    "Verif.Props.C78_all_partial"
   ],
   "note": "False of the code: copy.deepcopy of a system fails because of the Cython graph, so no file is ever written (C78_subsystem_false). With a copy that works the property holds (C78_files_partial, C78_all_partial) for files with at most six decimals and a certificate file with a mode."
  },
  {
   "property": "C79",
   "status": "proved",
   "theorems": [
    "Verif.Props.C79_mdp",
    "Verif.Props.C79_dtmc"
   ],
   "note": "The functions are assumed to return new dictionaries and to depend on their arguments only. States without actions that are not entered have no node (example loneSys)."
  },
  {
   "property": "C80",
   "status": "partial",
   "theorems": [
    "Verif.Props.C80_mdp",
    "Verif.Props.C80_dtmc_partial",
    "Verif.Props.C80_weight_false",
    "Verif.Props.C80_raises",
    "Verif.Props.C80_raises_false"
   ],
   "note": "Proved for MDPs whenever .subsys returns or is not needed (C80_mdp). False of the code: with show_weights (the default) and a max certificate the picture raises whenever .subsys does (C80_raises, C80_raises_false), and for a DTMC whose rows are not in the order of the states the wrong entries are shown (C80_weight_false); C80_dtmc_partial covers the other chains."
  },
  {
   "property": "C81",
   "status": "proved",
   "theorems": [
    "Verif.Props.C81_load",
    "Verif.Props.C81_accepts",
    "Verif.Props.C81_negative"
   ],
   "note": "Numbers are what python's int and float accept: sign, digits, underscores between digits; negative sources and destinations count from the end (C81_negative). Characters outside ASCII in numbers, inf and nan are outside the model; probabilities are exact rationals."
  },
  {
   "property": "C82",
   "status": "partial",
   "theorems": [
    "Verif.Props.C82_load",
    "Verif.Props.C82_accepts",
    "Verif.Props.C82_errors",
    "Verif.Props.C82_inverse_partial",
    "Verif.Props.C82_inverse_false"
   ],
   "note": "Content, acceptance and exceptions are proved for every file (C82_load, C82_accepts, C82_errors). False of the code: with two lines for a state the two maps are not inverse (C82_inverse_false); C82_inverse_partial proves it for files with at most one line per state. Numbers as in C81; negative numbers have no label; characters outside ASCII count as letters."
  },
  {
   "property": "C83",
   "status": "partial",
   "theorems": [
    "Verif.Props.C83_mdp_accepts",
    "Verif.Props.C83_mdp",
    "Verif.Props.C83_dtmc_accepts",
    "Verif.Props.C83_dtmc",
    "Verif.Props.C83_label_states_false"
   ],
   "note": "Acceptance and content are proved for every pair of files. False of the code: states of the label file need not be states of the system (C83_label_states_false). Numbers as in C81; for MDPs negative sources and actions are outside the model."
  },
  {
   "property": "C84",
   "status": "proved",
   "theorems": [
    "Verif.Props.C84_mdp_header",
    "Verif.Props.C84_mdp_line",
    "Verif.Props.C84_dtmc"
   ],
   "note": "Malformed words are words of ASCII characters that are no integers (NotInt) or no decimal numbers and not inf, infinity, nan (NotFloat). Negative sources and actions of MDPs are outside the model."
  },
  {
   "property": "C85",
   "status": "proved",
   "theorems": [
    "Verif.Props.C85_generate",
    "Verif.Props.C85_subsystem",
    "Verif.Props.C85_threshold",
    "Verif.Props.C85_no_iterations",
    "Verif.Props.C85_render"
   ],
   "note": "The iterations claim is for the library's initializers and updaters and exact solvers, as C41 and C42."
  },
  {
   "property": "C86",
   "status": "proved",
   "theorems": [
    "Verif.Props.C86_subsystem",
    "Verif.Props.C86_certificate",
    "Verif.Props.C86_exact",
    "Verif.Props.C86_heuristic",
    "Verif.Props.C86_heuristic_infeasible",
    "Verif.Props.C86_decides"
   ],
   "note": "Systems with no state without action, as C13. The specification prWithin (probability of reaching the target through a set of states) is in Spec/Within and does not mention subsystems or reduction."
  },
  {
   "property": "C87",
   "status": "proved",
   "theorems": [
    "Verif.Props.C87_same_form",
    "Verif.Props.C87_check",
    "Verif.Props.C87_bounds_z",
    "Verif.Props.C87_bounds_y",
    "Verif.Props.C87_constructed",
    "Verif.Props.C87_neighbour",
    "Verif.Props.C87_accepted"
   ],
   "note": "The factor for vectors over state-action pairs is for non-negative vectors, since the tool does not check signs (C22, C23). Numbers are exact: the row sums differ from one, the arithmetic of the checks is not rounded."
  },
  {
   "property": "C88",
   "status": "partial",
   "theorems": [
    "Verif.Props.C88_same_partial",
    "Verif.Props.C88_false",
    "Verif.Props.C88_max_partial",
    "Verif.Props.C88_max_le_partial",
    "Verif.Props.C88_form_false"
   ],
   "note": "False of the code: C88_false gives a matrix with a stored zero for which a certificate for minimal probability at least 1 is accepted although the minimal probability is 0; the graph has an edge for the stored zero, so the end component is missed. C88_same_partial: without stored zeros the order of storing has no influence. C88_max_partial: with stored zeros the answers (and exceptions) for bounds on the maximal probability do not change, and those for the minimal probability only change if the end components found do; C88_max_le_partial: accepted upper bounds on the maximal probability are right. C88_form_false: a stored zero may make a reachability form possible or impossible."
  },
  {
   "property": "C89",
   "status": "partial",
   "theorems": [
    "Verif.Props.C89_coefficients",
    "Verif.Props.C89_labels_partial",
    "Verif.Props.C89_no_rewards",
    "Verif.Props.C89_reduce_no_rewards",
    "Verif.Props.C89_false"
   ],
   "note": "False for QSHeur and maximal probabilities of systems with proper end components: the label on the goal state goes unnoticed, its variable is taken to be the one counting the first label (C89_false). C89_labels_partial covers all other cases. The parts about coefficients and rewards hold without exception."
  },
  {
   "property": "C90",
   "status": "partial",
   "theorems": [
    "Verif.Props.C90_mdp",
    "Verif.Props.C90_dtmc",
    "Verif.Props.C90_set_target",
    "Verif.Props.C90_set_false"
   ],
   "note": "Pictures of forms made by reduce are covered without exception (C90_mdp, C90_dtmc, C90_set_target). False for forms made by the constructor: the two setters have no effect on their pictures (C90_set_false)."
  },
  {
   "property": "C91",
   "status": "proved",
   "theorems": [
    "Verif.Props.C91_reloaded",
    "Verif.Props.C91_certified",
    "Verif.Props.C91_large_error"
   ],
   "note": "For the files of save (C91_reloaded) and for rf followed by certify (C91_certified); C91_large_error is the model with three states. Numbers are exact, not doubles."
  },
  {
   "property": "C92",
   "status": "partial",
   "theorems": [
    "Verif.Props.C92_safe_iff_partial",
    "Verif.Props.C92_lost",
    "Verif.Props.C92_false"
   ],
   "note": "False of the code. C92_safe_iff_partial: all operations are defined exactly if no part has two successors (suc_points_c is freed in every round of the loop over the successors); C92_false: a tree with two branches. C92_lost: also with at most one successor blocks are not given back, at least one for each subsystem; their number is given exactly. Which points are dropped is a parameter; malloc does not fail."
  },
  {
   "property": "C93",
   "status": "partial",
   "theorems": [
    "Verif.Props.C93_one",
    "Verif.Props.C93_lists_partial",
    "Verif.Props.C93_false",
    "Verif.Props.C93_returns_iff"
   ],
   "note": "One method with one mode and lists of both behave as documented, and a call with one method returns exactly if there is no threshold or the thresholds are not negative and the mode is 'min' or 'max'. False for the mixed calls: for every non-empty list of methods with a single mode the letters of the mode are used as modes, and one method with a list of modes fails the check of the mode; both raise AssertionError whenever there is a threshold to visit (C93_false). Thresholds are exact numbers, isinstance checks and the console output are not modelled."
  },
  {
   "property": "C94",
   "status": "partial",
   "theorems": [
    "Verif.Props.C94_false",
    "Verif.Props.C94_points_partial"
   ],
   "note": "The points plotted are described exactly. False for timeouts: recorded times are measured and never -1, so timeout_val has no effect on plots of times (C94_false). For sol_range=None; axes, labels and markers are not modelled."
  },
  {
   "property": "C95",
   "status": "proved",
   "theorems": [
    "Verif.Props.C95_sound",
    "Verif.Props.C95_complete",
    "Verif.Props.C95_double",
    "Verif.Props.C95_row_sum",
    "Verif.Props.C95_accepted",
    "Verif.Props.C95_rounding"
   ],
   "note": "The standard model of rounding as hypothesis, and for double precision a definition of rounding to 53 bits (ties to even, subnormal numbers) that satisfies it. No overflow and no nan; products may be rounded separately or fused with the addition. The factor for vectors over state-action pairs is for non-negative vectors (C22, C23). C95_rounding: with tolerance 0 a wrong bound is accepted for a model whose numbers are machine numbers."
  },
  {
   "property": "C96",
   "status": "partial",
   "theorems": [
    "Verif.Props.C96_missing",
    "Verif.Props.C96_lower_partial",
    "Verif.Props.C96_lower_false",
    "Verif.Props.C96_upper_false"
   ],
   "note": "The effect on the matrix is exact (C96_missing: the result is that for the model in which the missing probability leads to an extra absorbing state), and lower bounds certified with tolerance 0 hold for every exact model above the given one. False for the rest: with probabilities 0.7, 0.2, 0.1 in double precision the spurious transition to fail destroys an end component, and with the default tolerance 'minimal probability at least 1' is accepted although it is 0 (C96_lower_false); upper bounds fail even with tolerance 0 (C96_upper_false). Rows that sum to more than one are not covered by the positive theorems; arithmetic is exact."
  },
  {
   "property": "C97",
   "status": "proved",
   "theorems": [
    "Verif.Props.C97_safe",
    "Verif.Props.C97_key_error",
    "Verif.Props.C97_undefined"
   ],
   "note": "For every sequence of in-range calls the model with pointers has a defined result, the answers in terms of the matrix entries, and the memory afterwards is the memory before (C97_safe, C97_key_error); any call out of range makes the run undefined (C97_undefined). malloc never fails, blocks are typed, integers are unlimited; the direction argument is one of the two documented ones. Out-of-range entries of the index map itself are not covered."
  },
  {
   "property": "C98",
   "status": "partial",
   "theorems": [
    "Verif.Props.C98_lost_partial",
    "Verif.Props.C98_false"
   ],
   "note": "Safety and the answers hold for every sequence of calls; the blocks lost are none exactly if every call found a single component, and at least c for a call that finds c >= 2 components (C98_lost_partial). False otherwise: on every graph with two states that share no end component m calls lose at least 2m blocks (C98_false). The exact number of lost blocks is only computed for concrete graphs."
  },
  {
   "property": "C99",
   "status": "partial",
   "theorems": [
    "Verif.Props.C99_neighbours_partial",
    "Verif.Props.C99_threshold_partial",
    "Verif.Props.C99_returns_partial",
    "Verif.Props.C99_missed_false",
    "Verif.Props.C99_low_false",
    "Verif.Props.C99_neighbours_false"
   ],
   "note": "False of the code: C99_neighbours_false (0.1 is reported as another number, a positive probability as 0), C99_missed_false (ValueError for the threshold 0.1 although a subsystem has exactly this probability), C99_low_false (a number is reported although no subsystem reaches the threshold 0.7). C99_neighbours_partial bounds the difference and characterises exactly the numbers that are kept and those that become 0; C99_threshold_partial and C99_returns_partial say what the answer of the tree algorithm means for the threshold given, under the hypotheses of C66."
  },
  {
   "property": "C100",
   "status": "partial",
   "theorems": [
    "Verif.Props.C100_probability_exact_partial",
    "Verif.Props.C100_probability_qs_partial",
    "Verif.Props.C100_value_partial",
    "Verif.Props.C100_infeasible",
    "Verif.Props.C100_probability_false",
    "Verif.Props.C100_value_false",
    "Verif.Props.C100_infeasible_false"
   ],
   "note": "False of the code: C100_probability_false (tolerance 1e-9: success for threshold 1 although the probability is at most 1e-6 and no subsystem reaches the threshold) and C100_value_false (value 1 reported with a subsystem of two states; every subsystem reaching the threshold has two). C100_infeasible_false: in max mode bounds that are correct up to 1e-9 can make the problem infeasible although a subsystem for the threshold exists. C100_infeasible: with exact bounds (and always in min mode) an infeasible answer is right whatever the tolerance. The partial theorems bound the damage for every eps: the probability of the reported subsystem falls short of the threshold by at most eps*(1+tolFactor), where tolFactor is 1+N/p^N in min mode (p the smallest positive probability) and N+2C in max mode; the value is within eps*groups of a whole number k, nothing smaller than k reaches the threshold, and some subsystem of size at most k reaches the threshold minus tolLoss. In max mode C100_value_partial and C100_infeasible take the LP for the upper bounds to be solved exactly; an unbounded answer is taken to be right."
  },
  {
   "property": "C101",
   "status": "partial",
   "theorems": [
    "Verif.Props.C101_enough_partial",
    "Verif.Props.C101_false"
   ],
   "note": "False of the code: for every D there is a Markov chain with D+3 states, accepted by the constructors, for which more than D calls of strongconnect are active at the same time, whatever random numbers are drawn (C101_false). C101_enough_partial: the result is that of an unlimited stack if there is room for N + max(N, transitions per state) + 1 nested calls of the functions that call themselves (other calls add a constant)."
  },
  {
   "property": "C102",
   "status": "partial",
   "theorems": [
    "Verif.Props.C102_dtmc_partial",
    "Verif.Props.C102_mdp_partial",
    "Verif.Props.C102_readable",
    "Verif.Props.C102_colour",
    "Verif.Props.C102_render",
    "Verif.Props.C102_colour_iff",
    "Verif.Props.C102_render_iff",
    "Verif.Props.C102_colours_false",
    "Verif.Props.C102_zero_false",
    "Verif.Props.C102_actions_false"
   ],
   "note": "Existence, boxes, texts, edges, and equal colours for equal label sets are proved for every hash function (C102_dtmc_partial, C102_mdp_partial, C102_readable, C102_colour, C102_render); which states share a colour is characterised exactly (C102_colour_iff, C102_render_iff). Three parts are false of the code: there are 143 colours, so in every chain with more states and pairwise different label sets two states share a colour (C102_colours_false); probabilities below 1/2*1e-10 are drawn as 0.0 (C102_zero_false); labels of actions are concatenated without separator, so that {a,b} and {ab} give identical pictures (C102_actions_false). Floats are exact numbers and str(round(p,10)) is the shortest decimal; graphviz itself is not modelled."
  },
  {
   "property": "C103",
   "status": "partial",
   "theorems": [
    "Verif.Props.C103_pr_min_partial",
    "Verif.Props.C103_pr_max_partial",
    "Verif.Props.C103_max_z_state_action_partial",
    "Verif.Props.C103_max_y",
    "Verif.Props.C103_false"
   ],
   "note": "False of the code for pr_min and pr_max: a state that reaches the target with probability 1/2 may get 1 from pr_min and 0 from pr_max although the answers are correct up to 1e-9 (C103_false). For every eps the error is at most eps*(1+N*(1+N/p^N)), where p is the smallest positive probability (C103_pr_min_partial, C103_pr_max_partial, C103_max_z_state_action_partial); infeasible and unbounded are never answered. For max_y_state_action the property holds as stated, with the factor N+2C (C103_max_y). A time-out or other status is not excluded."
  },
  {
   "property": "C104",
   "status": "proved",
   "theorems": [
    "Verif.Props.C104_order",
    "Verif.Props.C104_same",
    "Verif.Props.C104_heuristic",
    "Verif.Props.C104_heuristic_infeasible",
    "Verif.Props.C104_chain",
    "Verif.Props.C104_tree",
    "Verif.Props.C104_part",
    "Verif.Props.C104_again"
   ],
   "note": "For all pairs of calls with sound solvers: order of problems (C104_order), same problem (C104_same), heuristic (C104_heuristic, C104_heuristic_infeasible), chains (C104_chain), tree algorithm (C104_tree, under the hypotheses of C66), inside subsystems (C104_part, C104_again). An answer timeout, other status or an exception on one side is not excluded. The comparisons with the heuristic ask for labels that exist and mark neither target nor fail (LabelsOK; otherwise the constructors raise or the groups are wrong, see C40)."
  },
  {
   "property": "C105",
   "status": "partial",
   "theorems": [
    "Verif.Props.C105_builds_iff",
    "Verif.Props.C105_exact",
    "Verif.Props.C105_min_live",
    "Verif.Props.C105_min_builds_iff",
    "Verif.Props.C105_heuristic",
    "Verif.Props.C105_any",
    "Verif.Props.C105_zero_false",
    "Verif.Props.C105_labels_false"
   ],
   "note": "The characterisation (C105_builds_iff, for min certificates C105_min_builds_iff) is proved for every certificate. Successes without labels and with a positive threshold can be built, for the exact method (C105_exact) and for the heuristic with initializers and updaters of the library and positive weights (C105_heuristic). False of the code with labels: any accepted certificate of the optimal value may be the answer (C105_any), also one whose subsystem raises (C105_labels_false); and for threshold 0, where the subsystem of a success of the exact method never builds (C105_zero_false)."
  },
  {
   "property": "C106",
   "status": "proved",
   "theorems": [
    "Verif.Props.C106_inside",
    "Verif.Props.C106_finite",
    "Verif.Props.C106_exact",
    "Verif.Props.C106_heuristic",
    "Verif.Props.C106_decides",
    "Verif.Props.C106_heuristic_decides"
   ],
   "note": "Hypotheses of C61 and C62 on the solvers (the exact method for max without labels never succeeds, see C61). The specification rewWithin (expected reward collected inside a set of states, the action in the first target state included as in C51) is in Spec/RewWithin and does not mention forms or reductions. All values are finite (C106_finite)."
  },
  {
   "property": "C107",
   "status": "partial",
   "theorems": [
    "Verif.Props.C107_text",
    "Verif.Props.C107_failed",
    "Verif.Props.C107_prints_iff",
    "Verif.Props.C107_exact",
    "Verif.Props.C107_zero_false",
    "Verif.Props.C107_labels_false",
    "Verif.Props.C107_reward_false",
    "Verif.Props.C107_reward_results_false",
    "Verif.Props.C107_reward_picture_false",
    "Verif.Props.C107_reward_mask",
    "Verif.Props.C107_reward_picture"
   ],
   "note": "Failures can be printed (C107_failed); results with a subsystem of a reachability form can be printed iff .subsys can be built (C107_prints_iff, see C105), in particular successes of the exact method without labels and with a positive threshold (C107_exact); what the text then says is C107_text. False of the code for threshold 0 (C107_zero_false), with labels (C107_labels_false), and for every success and every certificate of a reward form: .subsys reads the attribute fail_label, which reward forms do not have (C107_reward_false, C107_reward_results_false); the picture of a max certificate with values raises, too (C107_reward_picture_false). For reward forms subsystem_mask and the other pictures are right (C107_reward_mask, C107_reward_picture)."
  },
  {
   "property": "C108",
   "status": "partial",
   "theorems": [
    "Verif.Props.C108_components",
    "Verif.Props.C108_form_partial",
    "Verif.Props.C108_reduce_partial",
    "Verif.Props.C108_solve",
    "Verif.Props.C108_solve_last",
    "Verif.Props.C108_initializers",
    "Verif.Props.C108_subsystem",
    "Verif.Props.C108_reward",
    "Verif.Props.C108_commands",
    "Verif.Props.C108_numbers_false"
   ],
   "note": "For all pairs of random numbers: the components, their number and properness (C108_components), exceptions and answers of reachability forms (C108_form_partial), of reduce (C108_reduce_partial), of reward forms (C108_reward), results of both methods (C108_solve, C108_solve_last), the start weights (C108_initializers), subsystems with their texts and pictures (C108_subsystem) and the commands (C108_commands; for minimize the initializer must depend on the answers of the form only) agree. False of the code: the numbers given to the components, hence state_to_mec, differ between runs (C108_numbers_false)."
  },
  {
   "property": "C109",
   "status": "proved",
   "theorems": [
    "Verif.Props.C109_probabilities",
    "Verif.Props.C109_reduce",
    "Verif.Props.C109_kept",
    "Verif.Props.C109_exact",
    "Verif.Props.C109_heuristic",
    "Verif.Props.C109_decides",
    "Verif.Props.C109_solutions",
    "Verif.Props.C109_certificates",
    "Verif.Props.C109_reward_reduce",
    "Verif.Props.C109_rewards",
    "Verif.Props.C109_reward_exact"
   ],
   "note": "For a correspondence of states (Renames; with rewards RewRenames): C109_probabilities, C109_rewards (values inside corresponding sets of states), C109_reduce, C109_reward_reduce, C109_kept, C109_solutions, C109_certificates, C109_exact, C109_decides (solvers that solve every problem), C109_heuristic, C109_reward_exact (solvers sound and definite on the bound programs)."
  },
  {
   "property": "C110",
   "status": "proved",
   "theorems": [
    "Verif.Props.C110_probabilities",
    "Verif.Props.C110_reduce",
    "Verif.Props.C110_exact",
    "Verif.Props.C110_heuristic",
    "Verif.Props.C110_decides",
    "Verif.Props.C110_certificates",
    "Verif.Props.C110_rewards",
    "Verif.Props.C110_reward_exact",
    "Verif.Props.C110_scale",
    "Verif.Props.C110_scale_exact"
   ],
   "note": "For Improves (probabilities) and RewImproves (rewards): C110_probabilities, C110_reduce (maximal mode), C110_exact, C110_heuristic, C110_decides (solvers that solve every problem; forms without end components in maximal mode), C110_certificates, C110_rewards (states that both reductions keep), C110_reward_exact (solvers sound and definite on the bound programs). For scaled (all rewards multiplied): C110_scale, C110_scale_exact. In minimal mode fewer actions can make the target unreachable, so that reduce fails; nothing is claimed there."
  },
  {
   "property": "C111",
   "status": "proved",
   "theorems": [
    "Verif.Props.C111_syntax",
    "Verif.Props.C111_malformed",
    "Verif.Props.C111_roundtrip",
    "Verif.Props.C111_ascii",
    "Verif.Props.C111_mapping",
    "Verif.Props.C111_certify",
    "Verif.Props.C111_subsystem",
    "Verif.Props.C111_certify_malformed",
    "Verif.Props.C111_stored"
   ],
   "note": "The grammar of JSON is Spec/Json.lean. C111_syntax (json.load accepts exactly the grammar and returns the value denoted), C111_malformed, C111_roundtrip, C111_ascii, C111_mapping, C111_certify, C111_subsystem, C111_certify_malformed, C111_stored. Outside the model: NaN and Infinity, half surrogate pairs, certificates that are not lists of numbers, limits on depth and digits. float.__repr__ and the rounding of decimals are parameters; ReprOk is the assumption that they fit."
  },
  {
   "property": "C112",
   "status": "proved",
   "theorems": [
    "Verif.Props.C112_rew_min",
    "Verif.Props.C112_rew_max",
    "Verif.Props.C112_max_z_state_action",
    "Verif.Props.C112_max_y",
    "Verif.Props.C112_scale"
   ],
   "note": "C112_rew_min, C112_rew_max, C112_max_z_state_action, C112_max_y: the stated bounds, for every eps >= 0 and every answer correct up to eps (Answer.Approx). C112_scale: with eps = 1e-9 a chain with expected reward 1 may get 2 and 0. A time-out or other status is not excluded."
  },
  {
   "property": "C113",
   "status": "partial",
   "theorems": [
    "Verif.Props.C113_frame",
    "Verif.Props.C113_depends",
    "Verif.Props.C113_session",
    "Verif.Props.C113_missing",
    "Verif.Props.C113_no_certificate",
    "Verif.Props.C113_certify",
    "Verif.Props.C113_rf",
    "Verif.Props.C113_in_place",
    "Verif.Props.C113_pipeline",
    "Verif.Props.C113_inputs_kept",
    "Verif.Props.C113_minimize_false",
    "Verif.Props.C113_subsystem_false",
    "Verif.Props.C113_collision",
    "Verif.Props.C113_subsystem_partial",
    "Verif.Props.C113_interrupted_false"
   ],
   "note": "C113_frame, C113_depends, C113_session, C113_missing, C113_no_certificate, C113_certify, C113_rf, C113_in_place, C113_inputs_kept and C113_pipeline hold for every disk (paths may name the same file, opening for writing may fail). False: minimize stores at most a file without certificates (C113_minimize_false, see C77), subsystem never stores anything (C113_subsystem_false, see C78; if systems could be copied every subsystem would be stored in files of its own, C113_subsystem_partial, and a label that occurs already would be refused with nothing written, C113_collision), and rf interrupted at its last file leaves a mixture (C113_interrupted_false); all-or-nothing of rf holds when its outputs can be opened. For render see C122."
  },
  {
   "property": "C114",
   "status": "partial",
   "theorems": [
    "Verif.Props.C114_runs",
    "Verif.Props.C114_rejects",
    "Verif.Props.C114_every_word",
    "Verif.Props.C114_help",
    "Verif.Props.C114_help_text",
    "Verif.Props.C114_flag_value",
    "Verif.Props.C114_first_word",
    "Verif.Props.C114_no_exception",
    "Verif.Props.C114_no_command",
    "Verif.Props.C114_order_false",
    "Verif.Props.C114_foreign_false",
    "Verif.Props.C114_dashes_false"
   ],
   "note": "C114_runs, C114_rejects, C114_every_word, C114_first_word, C114_no_exception, C114_no_command, C114_help, C114_help_text, C114_flag_value hold for all words. Three restrictions that the claim needs: -m, -s and -si swallow positional arguments that follow (C114_order_false), and an option of another command may be taken for a one-letter option with its argument (C114_foreign_false: -tol=1e-3 for rf is -t with ol=1e-3). A second -- leaves no path and the command ends with an exception (C114_dashes_false). Tolerances inf and nan are left out of C114_runs. Model of argparse of CPython 3.11.10; compared with the original on 66000 random command lines."
  },
  {
   "property": "C115",
   "status": "proved",
   "theorems": [
    "Verif.Props.C115_exists_unique",
    "Verif.Props.C115_reach",
    "Verif.Props.C115_extremal",
    "Verif.Props.C115_within",
    "Verif.Props.C115_certificate",
    "Verif.Props.C115_pr",
    "Verif.Props.C115_subsystem",
    "Verif.Props.C115_exact",
    "Verif.Props.C115_reward",
    "Verif.Props.C115_rew"
   ],
   "note": "The measure of runs is the one on the product sigma-algebra with the usual probabilities of finite beginnings; its existence (Ionescu-Tulcea) and uniqueness are proved. Certificates for Pr_max >= t and Pr_min <= t have to be non-negative (C22, C23). Solver answers are taken to be right (Spec/Solver). That infimum and supremum of the expected rewards are attained is C118_rew_extremal."
  },
  {
   "property": "C116",
   "status": "proved",
   "theorems": [
    "Verif.Props.C116_exact",
    "Verif.Props.C116_infeasible",
    "Verif.Props.C116_heuristic",
    "Verif.Props.C116_heuristic_infeasible",
    "Verif.Props.C116_original",
    "Verif.Props.C116_original_heuristic",
    "Verif.Props.C116_reward",
    "Verif.Props.C116_reward_heuristic",
    "Verif.Props.C116_reward_heuristic_infeasible",
    "Verif.Props.C116_minimal_false"
   ],
   "note": "Answer.Right (Spec/Solver) is the assumption on a solver that may be stopped: with \"optimal\" a feasible point, its length and its value; with \"infeasible\" no point is feasible; nothing about the other answers. The solver of the linear programs for the upper bounds is taken to be correct (fixed limit of 600 s, no integer variables); for reward forms it must also decide them (C61_timeout_false). \"infeasible\" of the heuristic on reward forms: C116_reward_heuristic_infeasible. C116_minimal_false shows the loss of minimality."
  },
  {
   "property": "C117",
   "status": "partial",
   "theorems": [
    "Verif.Props.C117_clean",
    "Verif.Props.C117_partial",
    "Verif.Props.C117_mdp",
    "Verif.Props.C117_dtmc",
    "Verif.Props.C117_depends",
    "Verif.Props.C117_raises",
    "Verif.Props.C117_constants_false"
   ],
   "note": "Without constants and labels: C117_partial (result), C117_mdp and C117_dtmc (content, with C83); for all arguments C117_clean, C117_depends and C117_raises (complete list of failures before prism runs). False of the code: constants and labels are never passed as documented (C117_constants_false, see C54). Assumed of prism: IsPrism (a function of the constants and the text, writes only the exported files); temporary names are new."
  },
  {
   "property": "C118",
   "status": "partial",
   "theorems": [
    "Verif.Props.C118_exists",
    "Verif.Props.C118_max_certificate",
    "Verif.Props.C118_min_certificate",
    "Verif.Props.C118_max_y",
    "Verif.Props.C118_pr_min",
    "Verif.Props.C118_pr_min_only",
    "Verif.Props.C118_pr_max_partial",
    "Verif.Props.C118_pr_max_only",
    "Verif.Props.C118_pr_max_false",
    "Verif.Props.C118_reward_certificate",
    "Verif.Props.C118_reward_max_y",
    "Verif.Props.C118_rew_min",
    "Verif.Props.C118_rew_max",
    "Verif.Props.C118_rew_attained",
    "Verif.Props.C118_rew_extremal"
   ],
   "note": "False of the code for pr_max: whenever the form has a proper end component, some strategy takes only actions that attain pr_max and never visits the target (C118_pr_max_false); C118_pr_max_partial covers the forms without proper end components. Everything else is proved as stated, in terms of the measure of runs (C115)."
  },
  {
   "property": "C119",
   "status": "partial",
   "theorems": [
    "Verif.Props.C119_accepts_partial",
    "Verif.Props.C119_tree_partial",
    "Verif.Props.C119_single_false",
    "Verif.Props.C119_forest_false",
    "Verif.Props.C119_empty_false",
    "Verif.Props.C119_interface_false",
    "Verif.Props.C119_quotient"
   ],
   "note": "True for every partition of the states of a reduced Markov chain into at least two non-empty parts (C119_tree_partial). For every matrix, accepted are exactly the partitions whose parts form a forest with at least one edge (C119_accepts_partial). The full claim is false of the code: the partition with one part is refused although one vertex is a tree (C119_single_false), for a matrix that is not from a reachability form two trees beside each other are accepted (C119_forest_false), the empty partition gives ValueError (C119_empty_false), and interface raises NameError whenever there is an entry to copy (C119_interface_false). The vertices of the graph of parts, its edges, the labelling and the marked states are those of the documentation (C119_quotient). The size of graph-tool's largest strongly connected component is a parameter (SccOK)."
  },
  {
   "property": "C120",
   "status": "partial",
   "theorems": [
    "Verif.Props.C120_program",
    "Verif.Props.C120_certificates",
    "Verif.Props.C120_value",
    "Verif.Props.C120_relaxed",
    "Verif.Props.C120_relaxed_max",
    "Verif.Props.C120_indicators",
    "Verif.Props.C120_indicators_relaxed",
    "Verif.Props.C120_indicators_labels",
    "Verif.Props.C120_none",
    "Verif.Props.C120_known_partial",
    "Verif.Props.C120_computed",
    "Verif.Props.C120_relaxed_bound_false",
    "Verif.Props.C120_known_false",
    "Verif.Props.C120_reward_program",
    "Verif.Props.C120_reward_indicators",
    "Verif.Props.C120_reward_indicators_labels",
    "Verif.Props.C120_reward_certificates",
    "Verif.Props.C120_reward_value",
    "Verif.Props.C120_reward_relaxed",
    "Verif.Props.C120_reward_computed",
    "Verif.Props.C120_reward_known_false"
   ],
   "note": "The program, its indicators, certificates, values and relaxation are proved for every reachability form (C120_program, C120_indicators, C120_indicators_relaxed, C120_indicators_labels, C120_certificates, C120_value, C120_relaxed, C120_relaxed_max, C120_none, C120_computed). False of the code: without proper end components the given bounds are not used (C120_known_false; with end components they are, C120_known_partial), and with end components and no given bounds the relaxed indicators of the mode max are not bounded by 1 (C120_relaxed_bound_false). Reward forms: C120_reward_program, C120_reward_indicators, C120_reward_indicators_labels, C120_reward_certificates, C120_reward_value, C120_reward_relaxed, C120_reward_computed; there the certificates are the vectors accepted for the threshold 0 that promise the threshold, as the checker refuses thresholds above 1, and given bounds are not used in either mode (C120_reward_known_false)."
  },
  {
   "property": "C121",
   "status": "proved",
   "theorems": [
    "Verif.Props.C121_near",
    "Verif.Props.C121_qualitative",
    "Verif.Props.C121_reloaded",
    "Verif.Props.C121_large_change",
    "Verif.Props.C121_false"
   ],
   "note": "C121_reloaded for save and loading; C121_near and C121_qualitative for any two models with the same transitions. C121_large_change: the multiple is needed (three states, the probability changes by more than 1/5); C121_false: below half a unit the target can be lost. Numbers are exact, not doubles."
  },
  {
   "property": "C122",
   "status": "partial",
   "theorems": [
    "Verif.Props.C122_picture_partial",
    "Verif.Props.C122_only_svg",
    "Verif.Props.C122_frame",
    "Verif.Props.C122_faults",
    "Verif.Props.C122_depends",
    "Verif.Props.C122_removed_false",
    "Verif.Props.C122_model_removed_false",
    "Verif.Props.C122_left_false",
    "Verif.Props.C122_command_line",
    "Verif.Props.C122_other_commands"
   ],
   "note": "C122_picture_partial (the picture and output.svg), C122_only_svg (nothing else changes if no file is named output), C122_frame, C122_faults, C122_depends, C122_command_line, C122_other_commands. False of the code: graphviz writes its source to the file output (without .svg) and removes it afterwards, so an existing file with this name is lost (C122_removed_false); with -o model.tra the model itself is lost (C122_model_removed_false); if graphviz fails its source replaces the file (C122_left_false). Graphviz is a parameter whose behaviour is recorded in Model/Render.lean; rows sum to one exactly."
  },
  {
   "property": "C123",
   "status": "partial",
   "theorems": [
    "Verif.Props.C123_data",
    "Verif.Props.C123_saved",
    "Verif.Props.C123_unchanged",
    "Verif.Props.C123_same",
    "Verif.Props.C123_raises",
    "Verif.Props.C123_debug_false",
    "Verif.Props.C123_names_partial",
    "Verif.Props.C123_many",
    "Verif.Props.C123_all_partial",
    "Verif.Props.C123_tree_false",
    "Verif.Props.C123_false"
   ],
   "note": "The data (C123_data, C123_raises), the file (C123_saved, C123_unchanged, C123_same) and lists of methods (C123_many) are described exactly for every method and disk. False of the code: the name of the file does not mention the partition and the solver of TreeAlgo, so the data of one run replace those of another (C123_tree_false, C123_false); C123_names_partial says what the names tell apart, C123_all_partial that all data are kept if the methods differ in that. debug=True raises IndexError if a method yields nothing (C123_debug_false). Floats are assumed to be written so that they are read back (Json.ReprOk), class names and solvers to have no comma; the clock and the methods are parameters."
  },
  {
   "property": "C124",
   "status": "partial",
   "theorems": [
    "Verif.Props.C124_partial",
    "Verif.Props.C124_labels_partial",
    "Verif.Props.C124_false"
   ],
   "note": "False of the code: on a DTMC with seven states, default settings and an exact solver, one iteration returns three states and two iterations return four (C124_false). The reason is the cap on the weights: a state with a tiny value and a removed state cost the same. In min mode with the default weights, without labels (C124_partial): the values of the states that come back sum up to at most the reported size times 1e-8; if no positive value of the new certificate is that small, the size does not grow and no state comes back; the same for labels (C124_labels_partial). Not stated for max mode, where the bounds computed for the variables enter. With InverseResultFixedZerosUpdater the claim holds without restriction (C43)."
  },
  {
   "property": "C125",
   "status": "proved",
   "theorems": [
    "Verif.Props.C125_converged",
    "Verif.Props.C125_rewards",
    "Verif.Props.C125_periodic",
    "Verif.Props.C125_periodic_rewards"
   ],
   "note": "Assumes that the solver is a function of the problem and that its answers are correct (Sound). Not claimed for InverseResultFixedZerosUpdater, which adds constraints in every iteration."
  },
  {
   "property": "C126",
   "status": "proved",
   "theorems": [
    "Verif.Props.C126_prefix",
    "Verif.Props.C126_stop",
    "Verif.Props.C126_stop_rewards"
   ],
   "note": "Assumes that the solver is a function of the problem. C126_stop and C126_stop_rewards also assume that its answers are correct."
  }
 ]
}