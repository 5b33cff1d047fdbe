# Design of the formal model of SWITSS

Source: `/repo` (simonjantsch/switss, python/cython).  The model is written in Lean 4
(with single Mathlib modules) under `lean/Verif/`.

## 1. Layout

* `Verif/Model/*`  – the code, function by function.  Every definition cites file and lines.
* `Verif/Spec/*`   – small specifications that do not use any model definition
  (MDP semantics by schedulers, graph paths, end components, relations, solver answers, expected
  rewards, text lines/fields/numbers).
* `Verif/Theory/*` – mathematics used by the proofs (value iteration, Farkas arguments, transience,
  LP attainment, cutting subsystems, expected rewards, linear systems over a subfield of the reals, the measure of runs, values of strategies that take tight actions).
* `Verif/Proofs/*` – helper lemmas about the model.
* `Verif/Props/*`  – the property theorems `Cxx_*`, each with a non-vacuity `example` or a concrete
  instance that satisfies the hypotheses.

Naming: a theorem `Cxx_…_partial` proves less than property `Cxx` (its comment says what is missing);
`Cxx_…_false` refutes the property (or a part of it) for the code as it is.

## 2. Modelling conventions

* Python dictionaries / scipy `dok_matrix` / `bidict`: association lists in insertion order with
  python's update rule.  Python sets: duplicate-free lists; the order is universally quantified (a
  parameter `π`), so theorems hold for every iteration order.
* Exceptions: `Except Err` / `Option`.  A failed `assert` is `Err.assertion`.
* Loops: structural folds, or fuel with a theorem that the fuel is never exhausted (termination).
* `rand()` (treap priorities): a function/list argument, universally quantified.
* LP/MILP solvers (cbc, gurobi, …): an argument.  Where a property depends on solver correctness the
  theorem takes "the answer is an optimal feasible solution" as hypothesis (`Spec/Solver`); where it
  does not (e.g. C27) the answer is arbitrary.
  C100, C103 and C112 replace this by `Answer.Approx ε` (`Spec/Approx`): bounds, rows and integrality hold up to `ε`, no exactly feasible
  point is better by more than `ε`, and "infeasible"/"unbounded" are right; for `ε = 0` the two agree (`approx_zero`).
  C116 weakens it to `Answer.Right`: with "optimal" a feasible point that need not be a best one (pulp reports status 1 for a run of CBC that
  the time limit stopped and that has a solution; this is behaviour of pulp, not of the repository).
* Numbers: python floats are modelled by an ordered field `K` with an order-preserving
  embedding `φ` into `ℝ`, the field of the semantics (`K = ℚ` and `K = ℝ` are instances; the model is
  executed at `ℚ`).  That optimal values, certificates and solutions of the linear programs lie in `K`
  is proved (`Theory/Transfer`, Fourier–Motzkin; `Theory/Rational`).  Rounding of float arithmetic is not modelled.  Explicit rounding in the code (`np.round(…,9)`,
  `"%f"`) is modelled.
* `int()` and `float()` of texts in files: ASCII digits, signs, surrounding blanks, `_` between digits, exponents
  (`Model/Text`).  `Err.outside` marks inputs the model says nothing about: non-ASCII characters in numbers,
  `inf`/`nan`, negative sources or actions in MDP files.
* C arrays indexed by state: total functions `Nat → _`; out-of-range accesses are made explicit
  where the code can perform them.
* Object identity is modelled only where it is observable: the cache cells of `ReachabilityForm`
  (C18, C19) and the sets shared between caller and `InvertibleDict` (C58, `Model/Aliasing`).

## 3. Semantics used by the specifications

An MDP is `rows : S → Finset R` (available state-action pairs) and `P : R → S → ℝ`.  Schedulers are
history dependent and randomised: `σ : List (S × R) → S → R → ℝ`.  `reachProb σ n h s` is the
probability of reaching `T` from `s` within `n` steps, `Pr σ s = ⨆ n`, `PrMax = ⨆ σ`,
`PrMin = ⨅ σ`.  Expected rewards analogously.  `WithinMax`/`WithinMin` (`Spec/Within`) are the
probabilities of reaching `T` through the states of a set `A` only (C86), `RewWithinMax`/`RewWithinMin` (`Spec/RewWithin`) the
expected rewards collected inside `A` (C106).  The probability of an unbounded reachability event is defined as the supremum of
the step-bounded ones; all properties but C115 and C118 use this definition.  `Spec/Paths` defines the measure of infinite runs by the probabilities
of their finite beginnings.  `Theory/Paths` and `Theory/Payoff` prove that it exists, is unique, and that probabilities and expected rewards with
respect to it are those defined above (C115).

## 4. Code that is modelled

| code | model | properties |
|------|-------|-----------|
| `utils/invertible_dict.py` (all but `repr`, type checks) | `InvertibleDict`, `Aliasing` | C01, C02, C58 |
| `utils/treaps.pyx` (all but the self tests and `free`) | `Treap` | C03 |
| `utils/graph.pyx` (all but `__str__`, memory management); `stack.pyx` as lists | `Graph` | C04–C08 |
| conversions to C `float` in `utils/graph.pyx` (13, 46) and `utils/tree_decomp.pyx` (472) | `Single` | C04, C99 |
| `utils/graph.pyx`, `treaps.pyx` (without `treap_from_arr`, `print_treap` and the self tests), `stack.pyx` once more with pointers, `malloc` and `free` | `Mem`, `TreapMem`, `GraphMem` | C97, C98 |
| the same functions with the number of nested calls (those of functions that call themselves) | `Depth` | C101 |
| `model/amdp.py`, `dtmc.py`, `mdp.py`: constructors, checks, labels, reachability | `System` | C09 |
| `amdp.from_file`, `save`, `_load_transition_matrix`, `prism.parse_label_file` | `Text`, `IO` | C10–C12, C59, C81–C84, C91, C121 |
| `from_stormpy`, `from_stormpy_model`, `choice_model_from_stormpy` | `Storm` | C56, C65 |
| `model/reachability_form.py` | `RF`, `RFInfo`, `Reduce` | C13–C19, C28–C32, C57, C60, C67, C72, C86, C87, C96, C103, C108–C110, C118 |
| `model/reward_reachability_form.py` | `Reward` | C50–C52, C73, C106, C112, C118 |
| `utils/casting.py` (1-d, 2-d and sparse arguments) | `Casting` | C74 |
| `certification/certificates.py` | `Cert`, `RewCert` (on reward forms) | C20–C27, C57, C68, C69, C85, C87, C88 |
| the same and `__check_correctness`, `A`, `fark_*_constraints` with rounded operations | `Float` | C95 |
| `solver/milp.py`: `MILP`, `LP`, `GurobiMILP` (pulp and gurobipy as state machines) | `Milp` | C33–C36 |
| `problem/formulations.py` (without real indicator constraints) | `Problem` | C37–C40, C120 |
| `problem/milpexact.py`, `qsheur.py`, `qsheurparams.py`, `problemform.py` | `Problem`, `QSInit` (constructors of the initializers) | C38–C44, C49, C61, C62, C71, C85, C104, C105, C124–C126 |
| `problem/tree_algo.py` `_solveiter` as a result list | `Problem: treeAlgo` | C49 |
| `problem/subsystem.py` | `Subsystem`, `Reward: mkSub`, `Digraph`, `Repr` (`.subsys` and `digraph` for reward forms) | C45–C48, C80, C104, C105, C107 |
| `__repr__` of `ProblemResult`, `Subsystem`, `ReachabilityForm`, `AbstractMDP` (`str` of a number is a parameter) | `Repr` | C107 |
| `digraph` of `model/mdp.py`, `model/dtmc.py` (the `node` and `edge` calls; the callbacks are parameters) | `Digraph` | C79 |
| `reachability_form.py`: `__adapt_style`, `set_target_visualization_style`, `set_fail_visualization_style` | `Style` | C90 |
| `utils/tree_decomp.pyx`: `increase_iterator` and its loop | `TreeDecomp` | C55 |
| `utils/tree_decomp.pyx`: `min_witnesses_from_tree_decomp` with its helpers; `graph_utils.quotient` | `TreeAlgo` | C66 |
| `utils/tree_decomp.pyx`: `malloc` and `free` of the tree algorithm | `TreeMem` | C92 |
| `utils/graph_utils.py`: `underlying_graph`, `quotient`, `interface`; `utils/tree_decomp.pyx`: `is_tree`, `tree_decomp_from_partition_graphtool` | `GraphUtils` | C119 |
| `prism/prism.py: prism_to_tra` up to the process call | `Prism` | C54 |
| `prism/prism.py: prism_to_tra`, `model/amdp.py: from_prism_model` with temporary files and the effect of the process (a parameter, `IsPrism`) | `FromPrism` | C117 |
| `utils/graphviz_utils.py`: all; the state map of `switss render -col` (md5, `repr` and the order of sets are parameters; `str(round(p,10))` of an exact number) | `StdMaps` | C102 |
| `benchmarks/benchmarks.py`: `run`, the series plotted by `render` | `Bench`, `BenchArgs` (kinds of arguments, time plots) | C53, C63, C64, C93, C94 |
| `benchmarks/benchmarks.py`: the dictionary returned by `run`, `print_json`; `details` of the three methods, `ProblemFormulation.__repr__` (the clock, the methods and the naming of files are parameters) | `BenchFiles` | C123 |
| `bin/switss`: `rf`, `minimize`, `certify`, `subsystem` (from the contents of the files to the contents of the files; JSON files as values; printing and `render` left out) | `Cli` | C75–C78, C91 |
| `bin/switss`: the text of the JSON files (`json.dump`, `json.load` of the standard library with default arguments; `float.__repr__` and the rounding of decimals are parameters), `unpack_results`, `details` of the methods | `Json` | C111 |
| `bin/switss`: paths, `open`, the order of reading and writing, exceptions half way, sessions of commands (the disk is a function from files to texts; the encoding is left out; `render` is in `Render`) | `Files` | C113 |
| `bin/switss`: `renderargs`, from the command line to the files (the library graphviz is a parameter: it writes its source to the file `output`, lets `dot` write `output.svg` and removes `output`) | `Render` | C122 |
| `bin/switss`: the parsers of lines 174-333, with `argparse` of the standard library (`_parse_optional`, `_get_option_tuples`, `_parse_known_args`, `_get_values`; CPython 3.11.10; texts of messages left out) | `Argparse` | C114 |

## 5. Code that is not modelled

* row sums that are one only after rounding to nine decimals: the constructors accept them (`Sys.mk`), but the semantics
  needs rows that sum up to one exactly (`Sys.WF`), so the theorems are about those systems; C87 says what certificates
  checked on an accepted system mean for the system with the rows divided by their sums;
* floating point rounding: every `float` operation is exact, except in `Float` (C95), where the operations of the
  constructor's check of row sums and of `check_farkas_certificate` are rounded (no overflow, no `nan`), and in `Single` (C99),
  where probabilities and thresholds are converted to C `float`s; time-outs as such (a solver answers with a
  status), wall-clock time, memory management (`malloc`/`free`) except that of `tree_decomp.pyx`,
  `graph.pyx`, `treaps.pyx` and `stack.pyx` (there `malloc` never fails, blocks have a type and no size in bytes, C `int`s are unlimited);
* graphviz itself, axes and labels of `render`;
* the prism, storm and solver processes themselves, the file system except for the paths and `open` of `bin/switss` (C113);
* inside `tree_decomp.pyx`: qhull, LAPACK and graph-tool's topological sort are parameters (`HullOK`, `LinOK`,
  `PathPartition.perm/link` say what is assumed of them); BDDs are sets of assignments; time-outs;
* in `bin/switss`: the texts that are printed, directories created and the viewer opened by `render`; `copy.deepcopy` is a parameter, and `noCopy` records
  that it fails for the Cython class `Graph`. In `GraphUtils` the size of
  graph-tool's largest strongly connected component is a parameter (`SccOK`), and edges are visited in the order in which they were added.

## 6. Findings: properties that are false of the code

Each has a theorem with the suffix `_false` (or one that characterises the failure).

| id | finding | place |
|----|---------|-------|
| C10, C11 | probabilities are saved with six decimals; a saved model may not be loadable (rows `1/3,1/3,1/3`); action labels and rewards are lost | `dtmc.py`, `mdp.py: save` |
| C12 | label names with `"` or line breaks are corrupted | `save`, `parse_label_file` |
| C13 | (outside of its statement) a target without actions is dropped by `reduce` | `reachability_form.py: reduce` |
| C19 | the cached right-hand side is mutated in place: a Farkas system already handed out changes with later calls | `reachability_form.py` |
| C22, C23 | vectors with negative entries are accepted as certificates; then they prove nothing | `certificates.py` |
| C25, C27 | min case with proper end components: no certificate of the required form / the wrong variables are fixed to zero | `certificates.py` |
| C26 | with the default tolerance wrong statements can be accepted | `certificates.py` |
| C31 | `max_y_state` is too large by one at the initial state | `reachability_form.py` |
| C33 | binary variables ignore explicit bounds | `solver/milp.py` |
| C34, C35 | pulp: a second objective keeps old coefficients; removing a constraint raises `KeyError` | `solver/milp.py` |
| C36 | the back ends treat repeated variables differently; `LP.add_variables` always raises | `solver/milp.py` |
| C48 | action labels of subsystems are lost (dictionary built the wrong way round) | `subsystem.py` |
| C49 | `TreeAlgo` reports a time-out as success with value -1, and raises a type error when infeasible | `tree_algo.py` |
| C51, C52 | reward of old target rows is counted once; `RewardReachabilityForm.fromsystem` raises `AttributeError` always | `reward_reachability_form.py` |
| C54 | `prism_to_tra` unpacks the keys of the constants dictionary | `prism.py` |
| C55 | the successor iterator uses inclusive bounds | `tree_decomp.pyx` |
| C56 | labels of choices are on the wrong states of the choice model | `mdp.py` |
| C58 | label sets are shared with the caller | `invertible_dict.py` |
| C61 | reward forms: a time-out of the bound LP is reported as infeasible for thresholds above 1; max mode without labels raises `AttributeError` | `formulations.py` |
| C63 | threshold 1 is never benchmarked, the grid may exceed `to_thr` | `benchmarks.py` |
| C64 | results of runs that ended with a time-out cannot be plotted | `benchmarks.py` |
| C65 | `DTMC.from_stormpy` raises `TypeError` always | `amdp.py`, `dtmc.py` |
| C66 | tree algorithm: loops and transitions between entry states of a part are counted twice, so numbers are returned for infeasible problems; points below the threshold are dropped although other parts reach the target; `KeyError` for states that do not occur in the simplified BDD | `tree_decomp.pyx` |
| C66 | tree algorithm: row numbers are used as state numbers, so a chain built with an `index_by_state_action` other than the identity gets a wrong answer (`C66_rows_false`); chains that come out of `reduce` are not affected (`C66_reduced_rows`) | `tree_decomp.pyx`, `graph_utils.py:10-16`, `dtmc.py:29-35` |
| C69 | reward forms: certificates for thresholds above one are rejected by an assertion; `min` with `<=` raises `AttributeError` (no public index) | `certificates.py`, `reward_reachability_form.py` |
| C70 | MDP subsystems: the entry of the fail row is stored first, `from_file` numbers rows by first appearance, so `ReachabilityForm` rejects every saved and reloaded subsystem | `subsystem.py`, `mdp.py` |
| C71 | a group that never occurs gets 1e8 from `InverseFrequencyInitializer`, less than groups with summed frequency below 1e-8; a label without states makes `InverseReachabilityInitializer` raise `ZeroDivisionError` | `qsheurparams.py` |
| C75 | `certify`: negative vectors are called VALID, the default tolerance lets wrong bounds through, files without a mode (all that `minimize` can write) end in `KeyError` | `bin/switss` |
| C77 | `minimize` never stores a certificate: with the documented `mode=` the constructor raises `TypeError`, without it `process_result` raises `KeyError` | `bin/switss` |
| C78 | `subsystem` never writes a file: `copy.deepcopy` fails on the graph of the system | `bin/switss`, `graph.pyx` |
| C79 | states without actions that are not entered have no node | `mdp.py`, `dtmc.py` |
| C80 | `Subsystem.digraph` with its default `show_weights=True` and a "max" certificate raises whenever `.subsys` does, even for valid certificates | `subsystem.py:192` |
| C82 | with two lines for a state, `labels_by_state` keeps the last line and `states_by_label` all of them, so that the two maps disagree | `prism.py:33` |
| C82 | a blank line in a label file (also the last one) raises `AttributeError` | `prism.py:31` |
| C81, C59 | negative state numbers in transition files are not rejected: source and destination of chains and destinations of MDPs count from the last state (`C81_negative`) | `dtmc.py:141`, `mdp.py:191` |
| C83 | states of the label file are not compared with the states of the transition file | `amdp.py:213` |
| C88 | a zero stored explicitly in a sparse matrix counts as a transition: end components are missed and wrong certificates for minimal probabilities are accepted (`C88_false`); whether a reachability form can be built at all depends on stored zeros (`C88_form_false`) | `casting.py:18`, `graph.pyx:39` |
| C89 | `QSHeur` for maximal probabilities of a system with proper end components does not notice a label on the goal state: the variable after those of the certificate, which counts the first label, is taken for it (`C89_false`); all other calls raise `IndexError` | `formulations.py:98`, `formulations.py:149` |
| C85 | `QSHeur(iterations=0).solve` raises `IndexError` (`pop` from an empty deque) | `problemform.py:49` |
| C80 | for a DTMC and a "max" certificate the node of state `s` shows `certificate[s]`, although the entries belong to rows | `subsystem.py:197` |
| C90 | `set_target_visualization_style` and `set_fail_visualization_style` have no effect on pictures of forms made by the constructor; only `reduce` installs callbacks that read the styles (`C90_set_false`) | `reachability_form.py:86`, `:367` |
| C91 | saving with six decimals can change the probability of reaching the target a lot: `rf` and `certify` with tolerance 0 confirm "at least 0.5" for a chain with probability below 0.3 (`C91_large_error`) | `dtmc.py`, `mdp.py: save` |
| C92 | tree algorithm: with two successors of a part the array of points is read and freed after it was freed; blocks are lost for each subsystem | `tree_decomp.pyx:320-322, 502` |
| C93 | `benchmarks.run` with a list of methods and one mode iterates over the letters of the mode, and with one method and a list of modes passes the list on; both raise `AssertionError` (`C93_false`). The example in `docs/source/index.rst:423` gives no mode, although it has no default | `benchmarks.py:73-86`, `problemform.py:90` |
| C94 | `timeout_val` has no effect on plots of times, since timeouts are recorded with the time measured and never as -1 (`C94_false`) | `benchmarks.py:224` |
| C95 | with tolerance 0 rounding errors alone make `check_farkas_certificate` accept a wrong bound (`C95_rounding`); the docstring presents the tolerance as optional slack | `certificates.py:113-122` |
| C96 | `reduce` sends the probability missing in a row (sums of floats like 0.7+0.2+0.1 fall short of one) to `fail`; this can remove an end component, and a wrong lower bound on the minimal probability is then accepted with the default tolerance (`C96_lower_false`); upper bounds can be wrong with tolerance 0 (`C96_upper_false`) | `reachability_form.py:411-421` |
| C97 | `reachable_mask`, `successors` and `predecessors` do not check state numbers: a negative or too large one (for example from a label file, see C83) makes them read or write outside the allocated arrays (`C97_undefined`); `maximal_end_components` of a graph without states dereferences `NULL` | `graph.pyx:66-76, 198-212, 298-330` |
| C98 | `maximal_end_components` loses memory unless there is exactly one component: the array of each round but the last (`subg_arr`) is not freed, and `add_to_treap` loses a node for each key that is already there; at least `c` blocks per call for `c ≥ 2` components (`C98_false`) | `graph.pyx:211`, `treaps.pyx: add_to_treap` |
| C99 | probabilities reported by `successors`/`predecessors` are rounded to single precision: 0.1 becomes 0.10000000149, and transitions with probability up to 2^-150 are reported with 0 (`C99_neighbours_false`); so is the threshold of the tree algorithm: with threshold 0.1 it raises an exception for a chain with probability 0.1 (`C99_missed_false`), with threshold 0.7 it accepts 0.69999999 (`C99_low_false`) | `graph.pyx:13, 46`, `tree_decomp.pyx:472` |
| C100 | with solver tolerance 1e-9 a success may be reported for threshold 1 although the probability is at most 1e-6 (`C100_probability_false`): a violated row is amplified by the expected number of visits; and the reported value may be smaller than the number of states of the reported subsystem, as states with entry 1e-9 count (`C100_value_false`); in max mode bounds that are 1e-9 too small turn a solvable problem infeasible (`C100_infeasible_false`) | `solver/milp.py:71-80, 357-363`, `problem/milpexact.py`, `problem/subsystem.py` |
| C101 | `strongconnect` calls itself once per state on a path of the search, on the C stack: constructing the reachability form of a chain with `D + 3` states nests more than `D` calls, for every `D` (`C101_false`), so large models crash the interpreter | `graph.pyx:116`, `reachability_form.py:55` |
| C102 | 143 colours for any number of label sets, so different label sets share a colour (`C102_colours_false`); probabilities below 5e-11 are drawn as `0.0` (`C102_zero_false`); action labels are joined without separator, so {a, b} and {ab} look the same (`C102_actions_false`) | `graphviz_utils.py:2-39, 68, 82, 95`, `bin/switss:164` |
| C103 | with solver tolerance 1e-9 `pr_min` may give 1 and `pr_max` may give 0 for a state that reaches the target with probability 1/2 and leaves itself with probability 2e-9 per step (`C103_false`); `max_y_state_action` is not affected (`C103_max_y`) | `model/reachability_form.py:573-603, 686-707`, `solver/milp.py:71-80` |
| C105 | `.subsys` of a successful result may raise: with `labels` states without any of the labels cost nothing, so a certificate may select states that are not reachable from the initial state within the selected ones (`C105_labels_false`); for threshold 0 the exact method selects nothing and `.subsys` always raises (`C105_zero_false`) | `subsystem.py:82-160`, `formulations.py`, `problemform.py:87` |
| C107 | printing a result builds its subsystem, so it may raise as in C105; for reward forms `.subsys` always raises `AttributeError` (`fail_label` is missing), so no success can be printed and the picture of a max certificate with values cannot be drawn (`C107_reward_false`, `C107_reward_results_false`, `C107_reward_picture_false`) | `subsystem.py:125, 192, 226`, `problemresult.py:12`, `reward_reachability_form.py:12-26` |
| C108 | `state_to_mec` of the same form differs between two runs: the order in which components are found follows the random keys of the treaps, and `rand` is seeded with the time (`C108_numbers_false`) | `graph.pyx: maximal_end_components`, `treaps.pyx:8-9, 104-115` |
| C113 | `rf` is not atomic: if its last file cannot be opened, the `.tra` file is already replaced, and with `-o` the path of the model the new transitions stand beside the old labels; `minimize` and `subsystem` never store a certificate or a model (C77, C78) | `bin/switss` |
| C114 | `minimize -m QSHeur mdp path` is rejected: `-m`, `-s`, `-si` take all following words; `rf … -tol=1e-3` is accepted silently as `-t` with the label `ol=1e-3`; `rf mdp -- --` ends with an exception because no path is left (`C114_dashes_false`) | `bin/switss:293-309` |
| C116 | after a time limit the best solution found so far may be reported as `success` by `MILPExact`, with nothing that tells it from a minimal one (`C116_minimal_false`) | `milpexact.py:68-77`, `milp.py:59-95` |
| C117 | `from_prism_model(…, prism_constants={'N': 2})` raises `ValueError` although prism would export the model; constants with names of two characters are replaced by others (`{'NM': 2}` passes `N=M`) (`C117_constants_false`, `C117_raises`) | `prism.py:65`, `amdp.py:233-242` |
| C118 | `pr_max` returns only the values: if the form has a proper end component, a strategy that always takes actions attaining them may stay in the component forever and never visit the target (`C118_pr_max_false`, for every such form); `max_y_state_action` does not have this problem (`C118_max_y`) | `reachability_form.py:625-648`, `686-716` |
| C119 | the partition with a single part is refused by `tree_decomp_from_partition_graphtool` (`max(...) == 1` needs an edge; `C119_single_false`), two trees beside each other are accepted (`C119_forest_false`), the empty partition raises `ValueError` (`C119_empty_false`) | `tree_decomp.pyx:138-149` |
| C119 | `interface` uses the undefined name `node_map`: `NameError` as soon as there is an entry to copy (`C119_interface_false`) | `graph_utils.py:58` |
| C120 | `construct_MILP` ignores `known_upper_bounds` if there are no proper end components: the `elif rf.is_ec_free` computes bounds and overwrites the given ones, whatever their length (`C120_known_false`, `C120_reward_known_false`) | `formulations.py:201-213` |
| C120 | with proper end components and no given bounds the relaxed indicators of the mode "max" are not bounded by 1, although the documentation says so (`C120_relaxed_bound_false`) | `formulations.py:139-155` |
| C121 | saving and loading can lose transitions without an error: probabilities below half a unit of the sixth decimal are written as 0, and a target reached with probability 3/4 may be unreachable afterwards (`C121_false`) | `dtmc.py:109`, `mdp.py:127` |
| C122 | `switss render` removes the file named like its output: graphviz writes its source to `output` (without `.svg`) and `cleanup=True` deletes it (`C122_removed_false`); with `-o m.tra` the model is lost (`C122_model_removed_false`); if `dot` is missing the source stays (`C122_left_false`) | `bin/switss:160,169-171` |
| C123 | the file written by `benchmarks.run` is named after `str(method)`, which for `TreeAlgo` mentions neither the partition nor the solver: runs overwrite each other's data (`C123_tree_false`, `C123_false`); with `debug` a method without results raises `IndexError` (`C123_debug_false`) | `tree_algo.py:17-22`, `benchmarks.py:101,132-134` |
| C124 | with the default updater a further iteration of `QSHeur` may report, and `solve` return, a larger subsystem: the weights are capped by at most 1e9, so a used state with a tiny value is as expensive as a removed one (`C124_false`: three states after one iteration, four after two) | `qsheurparams.py:146-149` |

Further defects noticed while reading (not stated as properties): `AbstractMDP.strongly_connected_components` always raises
`AttributeError` (the graph method is `cdef`); the message for negative rewards raises `NameError` and the one for
non-square DTMC matrices `TypeError` (both modelled); `graph_utils.interface` uses an undefined name;
`add_indicator_constraint` uses the undefined name `newconstr`; `maximal_end_components` of a graph without nodes
dereferences `NULL`; `TreeAlgo` ignores `labels` and `mode`, and with a known upper bound an infeasible problem ends in
`min([])` (`ValueError`) or in an `AttributeError` (no convex hull).

## 7. Trusted base

* Lean's kernel; axioms `propext`, `Classical.choice`, `Quot.sound` only (per theorem: appendix).  No `sorry`, no own
  axioms, no compiler trust (`native_decide`), no `implemented_by`.
* The reading of the python/cython code recorded in the model's comments.
* Library behaviour assumed: scipy `dok_matrix` (dict of keys, assigning 0 deletes/does not store, index check),
  `bidict` (duplicate value raises), `pulp` (variables, last coefficient per variable wins in a
  dictionary), gurobipy (default lower bound 0), python `re`/`%`/`split`/universal newlines, numpy `arange` (exact), C `rand`.
* LP/MILP solver optimality (C100, C103, C112: up to an absolute tolerance) where stated in the hypothesis of a theorem.
* What stormpy guarantees about its models: hypothesis `Storm.WF` of C56, C65.

## 8. Mutation tests

`seeded/LOG.jsonl` lists edits of model definitions (made in a copy outside of `/verif`) with the claim each breaks, the
theorems that no longer hold and the theorems that were tightened as a consequence.

Entries `M…` were written by hand, each against one claim.  The other entries were generated: one comparison, connective, constant,
branch or exception of a model definition is changed.  For those `first_failing` lists the declarations that no longer check and
`theorems_failed` the property theorems that rest on them; a proof that no longer checks does not by itself show that its statement
became false.  Edits after which everything still checks are listed too, with the reason (the edit is equivalent or not reachable)
or the theorem that was added because of it.  Edits that do not compile are left out.

## Appendix: axioms per theorem

Output of `#print axioms` for every theorem of `MANIFEST.json` (namespace `Verif.Props`), grouped.

**`Quot.sound`, `propext`** (36):
`C04_neighbours`, `C04_build_iff`, `C04_system`, `C05_empty`, `C05_system_empty`, `C09_mdp_content`, `C09_dtmc_nonsquare`, `C27_generate_valid`, `C34_gurobi`, `C34_pulp_first_partial`, `C34_pulp_later`, `C35_pulp_false`, `C35_add`, `C36_fresh`, `C36_lp_add_variables_false`, `C39_not_ec_free`, `C49_tree_timeout_false`, `C49_tree_infeasible_false`, `C49_tree_partial`, `C49_tree_bound_partial`, `C52_never_returns`, `C58_single`, `C58_false`, `C64_states_partial`, `C64_empty`, `C65_dtmc_false`, `C72_unknown_label`, `C74_other`, `C85_subsystem`, `C85_threshold`, `C85_render`, `C88_max_partial`, `C89_no_rewards`, `C90_set_false`, `C119_empty_false`, `C119_quotient`

**`Classical.choice`, `Quot.sound`, `propext`** (558):
`C01_invertible`, `C02_effects`, `C03_treap_set`, `C03_insert`, `C04_single`, `C05_reachable`, `C05_system`, `C06_scc`, `C07_mec`, `C07_system`, `C08_proper`, `C08_actionless`, `C08_system`, `C09_mdp`, `C09_dtmc`, `C09_dtmc_default`, `C10_rounded`, `C10_roundtrip_partial`, `C10_false`, `C11_rounded`, `C11_roundtrip_partial`, `C11_false`, `C12_roundtrip_partial`, `C12_unclean`, `C12_false`, `C13_reduce_again`, `C13_reduce_consistent`, `C13_reduce_returns`, `C13_reduce_unreachable`, `C13_actionless_target_false`, `C14_reduce_probabilities`, `C15_reduce_matrix`, `C16_reduce_maps`, `C17_reduce_labels`, `C18_fark_z`, `C18_fark_y`, `C19_false`, `C19_other_partial`, `C20_min_ge_sound`, `C20_min_gt_sound`, `C21_max_le_sound`, `C21_max_lt_sound`, `C22_max_ge_sound_partial`, `C22_max_gt_sound_partial`, `C22_false`, `C23_min_le_sound_partial`, `C23_min_lt_sound_partial`, `C23_false`, `C24_min_complete`, `C24_max_complete`, `C25_max_complete`, `C25_min_complete_partial`, `C25_min_false`, `C25_min_certificates_partial`, `C25_min_initial_partial`, `C26_tolerance_z_partial`, `C26_tolerance_y_partial`, `C26_false`, `C27_generate_complete_partial`, `C27_min_le_false`, `C28_pr_min`, `C29_pr_max`, `C30_max_y`, `C31_max_y_state_partial`, `C31_false`, `C31_reward_max_y_state_partial`, `C32_max_z_state_action`, `C33_from_coefficients`, `C33_real_exact`, `C33_binary_bounds_false`, `C34_pulp_false`, `C35_gurobi`, `C35_live_constraints`, `C35_remove`, `C36_denote`, `C36_backends_differ_false`, `C37_reward`, `C37_reward_computed`, `C37_bounds`, `C37_infeasible`, `C37_bounded`, `C37_one_positive_z`, `C37_one_positive_y`, `C37_min`, `C37_max`, `C37_computed`, `C38_min`, `C38_returns`, `C38_feasible_iff`, `C39_max`, `C39_returns`, `C39_feasible_iff`, `C40_labels`, `C40_returns`, `C40_target_label`, `C41_sound`, `C41_value`, `C41_infeasible`, `C41_feasible_iff`, `C42_protocol`, `C42_solve`, `C42_returns`, `C43_fixed_zeros`, `C44_inverse_result`, `C44_returns`, `C44_weights_false`, `C44_positive`, `C45_min_ge`, `C45_min_gt`, `C45_max_ge`, `C45_max_gt`, `C45_returns`, `C45_default_checks_false`, `C46_le`, `C46_monotone`, `C47_construction`, `C47_again`, `C47_returns`, `C48_lost_false`, `C48_transposed_partial`, `C48_false`, `C49_last_partial`, `C50_finite`, `C50_rew_min`, `C50_rew_max`, `C50_max_y`, `C50_max_z_state_action`, `C51_inclusive`, `C51_shift_partial`, `C51_zero_partial`, `C51_finite`, `C51_returns_iff`, `C51_false`, `C52_raises`, `C53_run`, `C53_increasing`, `C53_success`, `C53_many`, `C54_empty_partial`, `C54_raises`, `C54_call`, `C54_never`, `C54_ignored`, `C54_false`, `C55_iff_partial`, `C55_single_partial`, `C55_false`, `C56_transitions_partial`, `C56_shifted`, `C56_false`, `C57_verdict`, `C58_shared`, `C58_adds`, `C58_unchanged_partial`, `C58_two_models`, `C59_load`, `C59_accepts`, `C60_memoryless_min`, `C60_memoryless_max`, `C60_between`, `C61_exact`, `C61_returns`, `C61_feasible_iff`, `C61_max_unlabelled`, `C61_max_raises`, `C61_timeout`, `C61_timeout_false`, `C62_sound`, `C62_returns`, `C63_grid_partial`, `C63_aligned_partial`, `C63_one_false`, `C63_false`, `C64_laststates_partial`, `C64_short`, `C64_false`, `C65_mdp_partial`, `C65_dtmc_matrix_partial`, `C66_path_partial`, `C66_returns_partial`, `C66_solve_partial`, `C66_loop_false`, `C66_detour_false`, `C66_keyerror_false`, `C66_reduced_rows`, `C66_original_partial`, `C66_rows_false`, `C67_in_proper_ec`, `C67_state_to_mec`, `C67_nr_of_proper_mecs`, `C67_is_ec_free`, `C67_nr_of_mecs`, `C68_exceptions`, `C68_min_ge`, `C68_max_le`, `C68_max_ge`, `C68_min_le`, `C69_min_ge_sound`, `C69_max_le_sound`, `C69_max_ge_sound_partial`, `C69_raises_partial`, `C69_complete_partial`, `C69_threshold_false`, `C69_min_le_false`, `C70_reload_mdp_partial`, `C70_reload_dtmc`, `C70_reload_reduced`, `C70_subsystem_false`, `C71_reachability_weights`, `C71_empty_group_false`, `C71_frequency_weights_partial`, `C71_combined_weights_partial`, `C71_frequency_false`, `C72_accepts_iff`, `C72_rejects`, `C73_accepts_iff`, `C74_dense`, `C74_vector`, `C74_same_system`, `C74_mdp_from_lists`, `C75_nine_decimals`, `C75_certify_sound_partial`, `C75_certify_tolerance_partial`, `C75_certify_verdicts`, `C75_certify_min`, `C75_certify_max`, `C75_mode_false`, `C75_certify_complete`, `C75_negative_false`, `C75_tolerance_false`, `C76_rf_accepted`, `C76_certified_sound_partial`, `C76_mapping`, `C76_rf_returns`, `C76_certified_complete`, `C77_minimize_false`, `C77_solve_false`, `C77_documented_false`, `C77_example_false`, `C78_subsystem_false`, `C78_copy_false`, `C78_files_partial`, `C78_all_partial`, `C79_mdp`, `C79_dtmc`, `C80_mdp`, `C80_dtmc_partial`, `C80_weight_false`, `C80_raises`, `C80_raises_false`, `C81_load`, `C81_accepts`, `C81_negative`, `C82_load`, `C82_accepts`, `C82_errors`, `C82_inverse_partial`, `C82_inverse_false`, `C83_mdp_accepts`, `C83_mdp`, `C83_dtmc_accepts`, `C83_dtmc`, `C83_label_states_false`, `C84_mdp_header`, `C84_mdp_line`, `C84_dtmc`, `C85_generate`, `C85_no_iterations`, `C86_subsystem`, `C86_certificate`, `C86_exact`, `C86_heuristic`, `C86_heuristic_infeasible`, `C86_decides`, `C87_same_form`, `C87_check`, `C87_bounds_z`, `C87_bounds_y`, `C87_constructed`, `C87_neighbour`, `C87_accepted`, `C88_same_partial`, `C88_false`, `C88_max_le_partial`, `C88_form_false`, `C89_coefficients`, `C89_labels_partial`, `C89_reduce_no_rewards`, `C89_false`, `C90_mdp`, `C90_dtmc`, `C90_set_target`, `C91_reloaded`, `C91_certified`, `C91_large_error`, `C92_safe_iff_partial`, `C92_lost`, `C92_false`, `C93_one`, `C93_lists_partial`, `C93_false`, `C93_returns_iff`, `C94_false`, `C94_points_partial`, `C95_sound`, `C95_complete`, `C95_double`, `C95_row_sum`, `C95_accepted`, `C95_rounding`, `C96_missing`, `C96_lower_partial`, `C96_lower_false`, `C96_upper_false`, `C97_safe`, `C97_key_error`, `C97_undefined`, `C98_lost_partial`, `C98_false`, `C99_neighbours_partial`, `C99_threshold_partial`, `C99_returns_partial`, `C99_missed_false`, `C99_low_false`, `C99_neighbours_false`, `C100_probability_exact_partial`, `C100_probability_qs_partial`, `C100_value_partial`, `C100_infeasible`, `C100_probability_false`, `C100_value_false`, `C100_infeasible_false`, `C101_enough_partial`, `C101_false`, `C102_dtmc_partial`, `C102_mdp_partial`, `C102_readable`, `C102_colour`, `C102_render`, `C102_colour_iff`, `C102_render_iff`, `C102_colours_false`, `C102_zero_false`, `C102_actions_false`, `C103_pr_min_partial`, `C103_pr_max_partial`, `C103_max_z_state_action_partial`, `C103_max_y`, `C103_false`, `C104_order`, `C104_same`, `C104_heuristic`, `C104_heuristic_infeasible`, `C104_chain`, `C104_tree`, `C104_part`, `C104_again`, `C105_builds_iff`, `C105_exact`, `C105_min_live`, `C105_min_builds_iff`, `C105_heuristic`, `C105_any`, `C105_zero_false`, `C105_labels_false`, `C106_inside`, `C106_finite`, `C106_exact`, `C106_heuristic`, `C106_decides`, `C106_heuristic_decides`, `C107_text`, `C107_failed`, `C107_prints_iff`, `C107_exact`, `C107_zero_false`, `C107_labels_false`, `C107_reward_false`, `C107_reward_results_false`, `C107_reward_picture_false`, `C107_reward_mask`, `C107_reward_picture`, `C108_components`, `C108_form_partial`, `C108_reduce_partial`, `C108_solve`, `C108_solve_last`, `C108_initializers`, `C108_subsystem`, `C108_reward`, `C108_commands`, `C108_numbers_false`, `C109_probabilities`, `C109_reduce`, `C109_kept`, `C109_exact`, `C109_heuristic`, `C109_decides`, `C109_solutions`, `C109_certificates`, `C109_reward_reduce`, `C109_rewards`, `C109_reward_exact`, `C110_probabilities`, `C110_reduce`, `C110_exact`, `C110_heuristic`, `C110_decides`, `C110_certificates`, `C110_rewards`, `C110_reward_exact`, `C110_scale`, `C110_scale_exact`, `C111_syntax`, `C111_malformed`, `C111_roundtrip`, `C111_ascii`, `C111_mapping`, `C111_certify`, `C111_subsystem`, `C111_certify_malformed`, `C111_stored`, `C112_rew_min`, `C112_rew_max`, `C112_max_z_state_action`, `C112_max_y`, `C112_scale`, `C113_frame`, `C113_depends`, `C113_session`, `C113_missing`, `C113_no_certificate`, `C113_certify`, `C113_rf`, `C113_in_place`, `C113_pipeline`, `C113_inputs_kept`, `C113_minimize_false`, `C113_subsystem_false`, `C113_collision`, `C113_subsystem_partial`, `C113_interrupted_false`, `C114_runs`, `C114_rejects`, `C114_every_word`, `C114_help`, `C114_help_text`, `C114_flag_value`, `C114_first_word`, `C114_no_exception`, `C114_no_command`, `C114_order_false`, `C114_foreign_false`, `C114_dashes_false`, `C115_exists_unique`, `C115_reach`, `C115_extremal`, `C115_within`, `C115_certificate`, `C115_pr`, `C115_subsystem`, `C115_exact`, `C115_reward`, `C115_rew`, `C116_exact`, `C116_infeasible`, `C116_heuristic`, `C116_heuristic_infeasible`, `C116_original`, `C116_original_heuristic`, `C116_reward`, `C116_reward_heuristic`, `C116_reward_heuristic_infeasible`, `C116_minimal_false`, `C117_clean`, `C117_partial`, `C117_mdp`, `C117_dtmc`, `C117_depends`, `C117_raises`, `C117_constants_false`, `C118_exists`, `C118_max_certificate`, `C118_min_certificate`, `C118_max_y`, `C118_pr_min`, `C118_pr_min_only`, `C118_pr_max_partial`, `C118_pr_max_only`, `C118_pr_max_false`, `C118_reward_certificate`, `C118_reward_max_y`, `C118_rew_min`, `C118_rew_max`, `C118_rew_attained`, `C118_rew_extremal`, `C119_accepts_partial`, `C119_tree_partial`, `C119_single_false`, `C119_forest_false`, `C119_interface_false`, `C120_program`, `C120_certificates`, `C120_value`, `C120_relaxed`, `C120_relaxed_max`, `C120_indicators`, `C120_indicators_relaxed`, `C120_indicators_labels`, `C120_none`, `C120_known_partial`, `C120_computed`, `C120_relaxed_bound_false`, `C120_known_false`, `C120_reward_program`, `C120_reward_indicators`, `C120_reward_indicators_labels`, `C120_reward_certificates`, `C120_reward_value`, `C120_reward_relaxed`, `C120_reward_computed`, `C120_reward_known_false`, `C121_near`, `C121_qualitative`, `C121_reloaded`, `C121_large_change`, `C121_false`, `C122_picture_partial`, `C122_only_svg`, `C122_frame`, `C122_faults`, `C122_depends`, `C122_removed_false`, `C122_model_removed_false`, `C122_left_false`, `C122_command_line`, `C122_other_commands`, `C123_data`, `C123_saved`, `C123_unchanged`, `C123_same`, `C123_raises`, `C123_debug_false`, `C123_names_partial`, `C123_many`, `C123_all_partial`, `C123_tree_false`, `C123_false`, `C124_partial`, `C124_labels_partial`, `C124_false`, `C125_converged`, `C125_rewards`, `C125_periodic`, `C125_periodic_rewards`, `C126_prefix`, `C126_stop`, `C126_stop_rewards`
