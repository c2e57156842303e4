# Design: a Lean 4 model of bcause

Code under study: `/repo/bcause` (python), read as text. Nothing of it is run.
The model lives in `lean/Verif/`; property theorems are in `lean/Verif/Props/`.
This file is written by `tools/design.py` from the texts in `tools/`, `properties.jsonl` and `MANIFEST.json`.

## 1. Architecture

| Layer | Lean modules | Python modelled |
|---|---|---|
| Python data | `Py.Basic` (exceptions as values, insertion-ordered dicts, `itertools.product`), `Py.Names` (strings, suffixes) | language / stdlib |
| Numbers | `Py.Fl` (`fin x`, `nan`, `inf`) | float division by zero, `np.nan_to_num` |
| Domains | `DomainUtils` | `util/domainutils.py` |
| Arrays | `NdArray`, `Util.Normalize` | the numpy calls used: `sum(axis)`, `max(axis)`, `repeat`, `reshape`, `moveaxis`, broadcasting, basic and advanced indexing |
| Stores | `Store.Numpy`, `Store.NumpyList`, `Store.Flat` (list, numpy1d), `Store.Tree`, `Store.BTree`, `Store.Heap` (sharing) | `factors/values/*` |
| Store interface | `Store.Class` | what `MultinomialFactor` relies on, with laws proved for the four stores a factor can have |
| Factors | `Factor.*` | `factors/factor.py`, `mulitnomial.py`, `deterministic.py`, `imprecise.py` |
| Graphs | `Graph.*`, `Model.Components` | networkx calls used, `util/graphutils.py`, `inference/ordering.py`, `models/info.py` |
| Models | `Model.*` | `models/*.py`, `models/transform/*.py` |
| Inference | `Inference.*` | `inference/probabilistic/*`, `inference/causal/*` |
| Learning | `Learn.*` | `learning/*`, `util/data*.py` |
| Files and conversion | `IO.*`, `Conv.Pgmpy` | `readwrite/*`, `conversion/pgmpy.py` |
| Probability | `Net.*`, `Sem` | no code: sums over assignments, d-separation, twin networks, Gibbs' inequality, Tian's factorisation |
| Specification | `Spec.*` | no code: independent definitions used in theorem statements |

Conventions:

* Exceptions are values (`Except PyErr`). Dicts are association lists in insertion order.
* Random choices and hash-dependent orders of sets are explicit arguments over which the theorems quantify.
* Loops whose termination is not structural take fuel, and the fuel is proved sufficient.
* Objects that are changed in place are values that are passed on; where aliasing matters (C51, C69) there is a heap.
* A specification is a small definition that does not mention the model: `Spec.BN` (a network is nodes, parents, states and
  tables; its joint is a product; a marginal is a sum), `Spec.Causal` (truncated factorisation, potential outcomes),
  `Spec.Graph` (closures), `Spec.Learning` (likelihoods). `Represents`, `SCM.Rep` and `IsTable` link objects to networks.
* Numbers: python floats are modelled by exact elements of an ordered field, extended with `nan` and `inf` where the code
  can divide by zero. Rounding is not modelled.

When the code does not have a property, the theorem with the suffix `_partial` states what it does have, and a concrete
witness refutes the rest.

## 2. What the code gets wrong

Each of these is a theorem about the model, in most cases an evaluated witness.

| Where | What happens | Theorem |
|---|---|---|
| `NumpyStore` | values of shared variables with differently ordered states are paired by position | `C02_numpy_violation` |
| `restrict` with lists | order of states, two lists and moved axes give wrong tables | `C08_violation_order`, `C08_violation_two_lists`, `C08_violation_axes` |
| `to_deterministic` | stores the index of the state instead of the state | `C17_violation` |
| `canonical_deterministic` | `ValueError` with the default store unless there is one parent | `C19_violation_two_parents`, `C19_violation_no_parents` |
| `str2dag` | isolated nodes are lost; also in files and conversions | `C22_isolated_lost`, `C63_isolated`, `C64_isolated`, `C75_isolated` |
| `set_factor` | children before parents: two tables with different states are accepted | `C27_child_first` |
| `to_multinomial`, `to_bnet` | the classification of variables is lost, roots are not cast | `C33_roles_lost`, `C33_root_not_cast`; an intervened model of equations cannot be saved in a `.bif` file: `C88_intervened_refused` |
| conditional queries | impossible evidence in a pruned part is not noticed | `C39_zero_evidence` |
| `VariableElimination` | a refused query leaves an object that answers an older one | `C41_stale_answer` |
| counterfactual queries | wrong answer when a name is the name of a copy; childless or exogenous interventions fail | `C43_name_collision`, `C44_childless`, `C44_exogenous_do` |
| `MultinomialFactor` operators | a number on the left of an operator raises `AttributeError` | `C79_number_on_the_left` |
| `CausalMultiInference` | objects that share a list answer for the wrong models; EMCC replaces models | `C51_shared`, `C51_emcc` |
| parallel learning | objects and models are paired wrongly | `C53_parallel` |
| EM | a second run learns nothing; counts of mixed missing values; observed parents are ignored; a record with the values of a variable and its parents makes learning fail; a variable that did not change once is not treated any more although the others change | `C55_no_learning`, `C57_double`, `C58_mixed`, `C59_observed_parent`, `C97_run_fails`, `C99_frozen` |
| gradient learner | `KeyError` for equations, same state for two exogenous parents, name containment | `C61_deterministic`, `C61_two_parents`, `C61_names` |
| `get_domains` | a name matches every name it is a part of | `C62_substring` |
| UAI files | exponents, names, labels, constants | `C63_exponent`, `C63_names`, `C64_labels`, `C64_constant` |
| pgmpy export | wrong matrix or exception for most factors with parents | `C65_raises`, `C65_order` |
| `copy`, `to_multinomial`, `intervention` | the tables are shared with the original: an in-place change of one is seen in the other | `C112_copy`, `C112_intervention` |
| factors with different `vtype` | operations raise `ValueError`, so queries fail when relevant tables differ in `vtype`; expectation maximisation counts in the default store and fails for models in another one | `C113_refused`, `C113_exact`, `C113_em_refused` |
| saving in BIF | a causal model whose equation has its own variable first comes back with another equation | `C88_bif_order` |
| `get_qgraph` | can be cyclic for a semi-Markovian model | `C67_cyclic` |
| `treedict` | derived factors share nodes with their source | `C69_tree_shares` |
| `get_value` | an incomplete observation returns the first cell, an array or a dictionary | `C71_incomplete_observation` |
| `submodel` | always raises `TypeError` | `C74_type_error` |
| `from_data_frame` | the wrong function unless the left variable is the last column; names contained in the left name raise | `C86_left_first`, `C86_names` |
| binary trees | the best split is not kept, the last one is | `C76_last_split` |
| random models | `random_deterministic` without right variables fails; `randomize_factors` of a model without factors fails; endogenous variables are refused | `C80_equation_none`, `C80_no_states`, `C80_endogenous_refused` |
| `StructuralCausalModel` of a text | the default of `endogenous` calls `predecessors` on the text: always fails without `endogenous`; variables without arcs are lost | `C95_scm_text_fails`, `C95_network` |
| sampling causal models | deterministic factors raise `TypeError`; `sampleEndogenous(as_pandas=False)` always fails | `C96_sampled`, `C96_records_fail` |
| table `*` equation | the states selected by the equation are taken as numbers and multiplied; the left variable of the equation is lost | `C118_wrong`, `C118_labels`, `C118_not_product` |
| `as_lists`, `dcon_nodes` | a variable whose name is not a string cannot be asked for by its name (`TypeError`, or a tuple is taken apart); `dcon_nodes` refuses lists of targets, which `dsep_nodes` accepts | `C119_not_string`, `C119_tuple`, `C119_container_refused` |

## 3. Properties

For each property: what is modelled, how it is proved, where the theorems are, and the status with what is missing.

### C01 Product of factors is the pointwise product on the union of the scopes (proved)

For every store type (numpy, numpy1d, list, treedict): f*g has as variables those of f followed by the new ones of g, and for every observation assigning a state to every variable of the union, (f*g).get_value(obs) == f.get_value(obs) * g.get_value(obs). Quantifier: all store types, all pairs of factors (any number of variables, any cardinalities, any variable order, shared variables having the same state list), all full observations.

* Model: `Store.*` (four stores, one code path each), `Factor.Basic`: `MultinomialFactor.multiply`.
* Proof: The value function of a store is its semantics; index calculus (`NdArray`, `DomainUtils`) for arrays, induction on the tree for `treedict`; collected in the laws `StoreImpl.Lawful`, which every store is shown to meet.
* Theorems: `C01_product_pointwise` in `Verif/Props/Factors.lean`
* Note: All four stores, shared variables having equal state lists.

### C02 Combination pairs values by state label, not by state position (partial)

When two factors share a variable but list its states in a different order (which the library accepts when building a model), f*g still multiplies values belonging to the same state label. Quantifier: all pairs of factors whose shared variables have the same set of states in any order.

* Model: As C01, with shared variables whose states are listed in different orders.
* Proof: Same index calculus for the label-based stores; the default store aligns axes by position and is refuted by evaluation. `C02_exact` says for which domains the default store is right: exactly when the shared variables list their states in the same order (a table with a single 1 tells the orders apart).
* Theorems: `C02_label_pairing_partial`, `C02_numpy_violation`, `C02_numpy_by_place`, `C02_by_place_example`, `C02_exact`, `C02_exact_example` in `Verif/Props/ExactPairing.lean`, `Verif/Props/Factors2.lean`, `Verif/Props/Place.lean`
* Note: False for the default store (counterexample proved). Proved for list, numpy1d and treedict. For the default store it is proved what happens instead: values are paired by place of the states, whatever the labels, so that it is right exactly for domains that list the states of shared variables in the same order (C02_exact).

### C03 Addition, subtraction and scalar operands are pointwise (proved)

f+g and f-g are pointwise on the union of the scopes, and combining with an int or float c combines every cell with c, leaving the scope and the left/right split unchanged. Quantifier: all store types, all pairs of compatible factors, all scalars, all full observations.

* Model: `addition`, `subtract`, scalar operands (`_prepare_operand`).
* Proof: As C01.
* Theorems: `C03_sum_pointwise`, `C03_difference_pointwise`, `C03_scalar_operand` in `Verif/Props/Factors.lean`
* Note: All four stores.

### C04 Division is pointwise and 0/0 is 0 in the default store (proved)

For every full observation, (f/g).get_value(obs) is the quotient of the two values when the divisor is non-zero; in the default (numpy) store 0/0 gives exactly 0, so dividing a joint by its own marginal never produces NaN. Quantifier: all store types, all pairs of compatible factors, all full observations.

* Model: `divide`; `Py.Fl` has `nan` and infinities, `np.nan_to_num`.
* Proof: As C01, case analysis on zero denominators.
* Theorems: `C04_division_pointwise`, `C04_zero_over_zero` in `Verif/Props/Factors.lean`
* Note: Exact field extended with nan and inf; 0/0=0 in the numpy store.

### C05 Marginalisation sums exactly the removed variables (proved)

f**vars has as variables those of f not removed (same order), and its value at any observation of them is the sum of f over all joint states of the removed variables; removing only variables that f does not have returns f itself. Quantifier: all store types, all factors, all subsets of its variables in any order, all full observations of the rest.

* Model: `marginalize` of each store.
* Proof: Sum over an axis = sum over the states of the variable; induction on the list of variables.
* Theorems: `C05_marginalize_sums`, `C05_marginalize_absent` in `Verif/Props/Factors.lean`
* Note: All four stores.

### C06 Max-marginalisation takes the maximum over exactly the removed variables (proved)

For the stores that implement it (numpy, list, treedict), f^vars at an observation of the remaining variables is the maximum of f over all joint states of the removed ones; the numpy1d store refuses with NotImplementedError. Quantifier: all factors, all subsets of variables, all observations of the rest.

* Model: `maxmarginalize`.
* Proof: As C05 with maxima.
* Theorems: `C06_maxmarginalize`, `C06_numpy1d_refuses` in `Verif/Props/Factors2.lean`
* Note: numpy, list and treedict; numpy1d raises.

### C07 Restriction conditions on the observed states and nothing else (proved)

f.R(**obs) drops exactly the observed variables, and its value at any observation of the rest equals f's value at the combined observation; observed variables that are not in f are ignored; an observed state outside the domain raises. Quantifier: all store types, all factors, all scalar observations of any set of variables.

* Model: `restrict` to one state.
* Proof: Basic indexing of arrays, descent in trees.
* Theorems: `C07_restrict_conditions`, `C07_restrict_bad_state` in `Verif/Props/Factors.lean`
* Note: All four stores.

### C08 Restriction to a set of states keeps labels and values together (partial)

f.R(X=[s1,..,sk]) in the default store keeps X with exactly the listed states and every remaining cell keeps the value f had for the same labels, whatever the order in which the states are listed and whatever other variables are restricted in the same call. Quantifier: all factors, all lists of states, all combinations of list-valued and scalar restrictions.

* Model: `restrict` with lists of states (numpy basic and advanced indexing).
* Proof: The proved cases by index calculus (`Store/NumpyLists.lean`: where numpy puts the axis of a list among integers and slices); three counterexamples by evaluation.
* Theorems: `C08_list_restriction_partial`, `C08_violation_order`, `C08_violation_two_lists`, `C08_violation_axes`, `C08_one_list`, `C08_in_order`, `C08_out_of_order`, `C08_apart`, `C08_apart_example`, `C08_one_list_example`, `C08_two_lists`, `C08_no_lists` in `Verif/Props/Factors3.lean`, `Verif/Props/Lists.lean`
* Note: False in general (three counterexamples proved). What the default store does is characterised for every observation: no list of two or more states is the same as states; one list gives values by place in the list (right exactly when listed in domain order) if the observed variables are together; apart, it raises unless the cardinalities happen to match; two lists always raise.

### C09 The store type is not observable (proved)

Evaluating any expression built from factor tables with product, sum, difference, marginalisation and restriction gives, for every store type, the same value at every full observation of the result's variables. Quantifier: all finite expressions (any depth) over well-formed factors with consistent domains, all pairs of store types, all observations.

* Model: Programs over factors, run on two stores.
* Proof: Induction on the program with the laws of C01-C07.
* Theorems: `C09_store_independence` in `Verif/Props/Factors2.lean`
* Note: Induction on expressions; full trees.

### C10 Reading back a written cell; no other cell changes (proved)

After set_value(x, obs) with a full observation, get_value(obs) is x and get_value at every other full observation is unchanged. Quantifier: all store types, all well-formed stores, all sequences of writes, all full observations.

* Model: `set_value`/`get_value`.
* Proof: List update at a flat index; different joint states have different indices.
* Theorems: `C10_read_after_writes` in `Verif/Props/Factors2.lean`
* Note: Any sequence of writes, all four stores.

### C11 Row-major layout: flat index and joint state determine each other (proved)

The k-th joint state enumerated by state_space has flat index k (index_list(domain, state) == [k]); partial observations yield exactly the flat indices of the joint states that agree with them, in increasing order. Quantifier: all domains, all partial observations.

* Model: `index_iterator`, `get_stepsize`, `coordinates`.
* Proof: Mixed-radix arithmetic, induction on the domain.
* Theorems: `C11_index_of_state`, `C11_partial_observation` in `Verif/Props/Factors3.lean`
* Note: 

### C12 A factor returns the values it was built with (proved)

A factor built from a flat list of values in row-major order (last variable fastest) returns that list as values_list for every store type, and a list whose length is not the product of the cardinalities is rejected. Quantifier: all store types, all domains, all value lists.

* Model: Constructors (`builder`) of the four stores.
* Proof: Index calculus; reshape is the identity on flat data.
* Theorems: `C12_values_roundtrip`, `C12_wrong_length` in `Verif/Props/Factors.lean`
* Note: All four stores.

### C13 values_array transposes without losing labels (proved)

f.values_array(order) at the coordinates of any joint state (in the requested variable order) equals f.get_value at that state. Quantifier: all factors, all permutations of their variables, all joint states.

* Model: `DiscreteFactor.values_array`.
* Proof: `moveaxis` as a permutation of coordinates.
* Theorems: `C13_values_array` in `Verif/Props/Factors3.lean`
* Note: 

### C14 Renaming variables of a factor is a pure relabelling (proved)

f.rename_vars(m), for m injective on the variables of f, has the renamed variables in the same order and the same left/right split, and its value at a renamed observation is f's value. Quantifier: all factors, all mappings injective on its variables.

* Model: `rename_vars`.
* Proof: Domain and data unchanged up to the injective renaming.
* Theorems: `C14_rename` in `Verif/Props/Factors3.lean`
* Note: 

### C15 Left/right bookkeeping of conditional factors (proved)

Whatever sequence of products, marginalisations and restrictions produced a factor from conditional tables P(X|pa), its left and right variables partition its variables, a product conditions on exactly the variables that are on the left of neither operand, and a factor with no left variables left after summing out whole tables of a DAG is identically one. Quantifier: all conditional factors and all operation sequences on them.

* Model: `left_vars`/`right_vars` through operation sequences.
* Proof: Invariant over operations.
* Theorems: `C15_left_right_bookkeeping`, `C15_summed_out_is_one` in `Verif/Props/Factors2.lean`, `Verif/Props/Inference.lean`
* Note: All four stores.

### C16 A structural equation becomes the degenerate table of its function (proved)

DeterministicFactor.to_multinomial() has value 1 where the left state is the function's value and 0 elsewhere, hence every column sums to one; eval agrees with it. Quantifier: all deterministic factors over any domains.

* Model: `Factor.Deterministic`, `to_multinomial`.
* Proof: Enumeration of the joint states of the right variables.
* Theorems: `C16_to_multinomial`, `C16_column_sums` in `Verif/Props/Deterministic.lean`
* Note: 

### C17 to_deterministic and to_multinomial are inverse (partial)

For a degenerate table P(X|pa), f.to_deterministic().to_multinomial() is the same table. Quantifier: all degenerate conditional tables over any state names.

* Model: `to_deterministic` (argmax).
* Proof: argmax of a zero-one column is the position of the one.
* Theorems: `C17_roundtrip_partial`, `C17_violation`, `C17_false`, `C17_exact`, `C17_exact_example` in `Verif/Props/Deterministic.lean`, `Verif/Props/Exact.lean`
* Note: False: to_deterministic stores the argmax index, not the state. Proved: the round trip yields the index of the state, and is exact precisely when every state that is selected somewhere is its own index.

### C18 The constant mechanism puts all the mass on the given state (proved)

f.constant(s) is a table over the single left variable with value 1 at s and 0 elsewhere, and a state outside the domain is rejected. Quantifier: all conditional factors with one left variable, all states.

* Model: `MultinomialFactor.constant`, `DeterministicFactor.constant`.
* Proof: Direct computation.
* Theorems: `C18_constant`, `C18_constant_bad_state`, `C18_constant_deterministic` in `Verif/Props/Deterministic.lean`, `Verif/Props/Factors3.lean`
* Note: Both factor classes.

### C19 The canonical equation enumerates every response function exactly once (partial)

canonical_deterministic(domain, U, parents) gives an equation in which each state of U selects a different function from parent configurations to states of X, and every such function is selected by one state. Quantifier: all cardinalities, any number of endogenous parents.

* Model: `canonical_deterministic`.
* Proof: Enumeration of all functions by mixed-radix digits: injective and surjective.
* Theorems: `C19_canonical_partial`, `C19_violation_two_parents`, `C19_violation_no_parents`, `C19_numpy_refuses` in `Verif/Props/Deterministic.lean`, `Verif/Props/Exact.lean`
* Note: False for the default store, which raises ValueError for every number of endogenous parents other than one. Proved for the other stores, and for the default store with one parent.

### C20 Random and uniform conditional tables are normalised (proved)

For every configuration of the right variables the values produced by normalize_array (used by random_multinomial and uniform_multinomial) sum to one over the left variables, and are non-negative. Quantifier: all shapes, all choices of left axes, all arrays of draws with non-zero column sums.

* Model: `normalize_array`, `random_multinomial`, `uniform_multinomial`.
* Proof: Sum over axes as a sum over states; the draws of the generator are an argument.
* Theorems: `C20_normalize_array`, `C20_random`, `C20_random_nonzero`, `C20_uniform`, `C20_zero_column` in `Verif/Props/Normalize.lean`
* Note: All shapes, axes and draws with non-zero column sums; a zero column gives nan (proved on an example).

### C21 Barren nodes are exactly those without queried descendants (proved)

barren_nodes(dag, S) returns exactly the nodes that are not in S and have no descendant in S, and barren_removal keeps the others with the edges among them. Quantifier: all DAGs, all S.

* Model: `graphutils.barren_nodes`, `barren_removal`.
* Proof: Computed reachability equals the inductive closure.
* Theorems: `C21_barren_nodes` in `Verif/Props/Graph.lean`
* Note: 

### C22 DAG string notation round-trips (partial)

str2dag(dag2str(G)) has the same nodes and edges as G. Quantifier: all DAGs with names free of the characters [ ] | :.

* Model: `dag2str`, `str2dag` on character lists.
* Proof: Parsing of what was printed, induction on edges.
* Theorems: `C22_roundtrip_partial`, `C22_single_node`, `C22_isolated_lost`, `C22_exact`, `C22_empty` in `Verif/Props/Exact.lean`, `Verif/Props/Util.lean`
* Note: Holds exactly for graphs of two or more nodes in which every node has an edge: isolated nodes are lost by str2dag, and graphs of one node or none cannot be read.

### C23 Markov blanket is parents, children and co-parents (proved)

model.markov_blanket(v) returns, without repetition, exactly the parents of v, the children of v and the other parents of its children. Quantifier: all DAGs, all nodes.

* Model: `markov_blanket`.
* Proof: Set extensionality.
* Theorems: `C23_markov_blanket`, `C23_markov_blanket_util` in `Verif/Props/Graph.lean`
* Note: 

### C24 Nodes reported d-separated really carry no information (proved)

If dsep_nodes(dag, target, evidence) reports v, then in every network over that DAG observing v in addition to the evidence does not change the posterior of the target. Quantifier: all DAGs, all targets and evidence sets, all conditional tables with positive evidence probability.

* Model: `dsep_nodes`, `dcon_nodes` through networkx' `d_separated` (moral ancestral graph).
* Proof: Factorisation of the joint over the two sides of a cut, over any field.
* Theorems: `C24_dsep_independence`, `C24_dsep_posterior` in `Verif/Props/Graph.lean`
* Note: 

### C25 Every built-in heuristic returns a complete elimination order (proved)

min_fill, min_size and min_weight return each requested variable exactly once, always choosing a variable of minimal current cost, whatever the tie-breaking. Quantifier: all DAGs, all subsets to remove, all tie-breaking choices.

* Model: `inference/ordering.py`, all heuristics.
* Proof: Loop invariant: the order is duplicate-free and consists of the variables to remove.
* Theorems: `C25_elimination_order` in `Verif/Props/Graph.lean`
* Note: 

### C26 A model only accepts tables that match its graph (partial)

With factor checking on, every table in a constructed model has exactly its node as left variable and exactly the node's parents as right variables; any other assignment raises ValueError and leaves the model unchanged. Quantifier: all DAGs, all sequences of set_factor calls.

* Model: `set_factor` and its checks as transitions.
* Proof: Invariant over all histories of calls.
* Theorems: `C26_histories`, `C26_constructed`, `C26_constructed_dict`, `C26_refused_partial`, `C26_unknown_name`, `C26_accepted` in `Verif/Props/Networks.lean`
* Note: The invariant holds for all histories of calls. Refusals are ValueError for the nodes of the graph; for a name that is not a node the code raises NetworkXError (C26_unknown_name).

### C27 A constructed model has consistent domains (partial)

In a model whose construction succeeded, all tables mentioning a variable list the same states for it. Quantifier: all DAGs, all families of tables, all orders in which they are given.

* Model: Constructors with lists and dictionaries of factors.
* Proof: Invariant on recorded domains in topological order; for the exact statements an invariant that says what is recorded after any list of tables.
* Theorems: `C27_topological_partial`, `C27_child_first`, `C27_parent_first`, `C27_state_order`, `C27_built`, `C27_exact`, `C27_orders`, `C27_exact_example` in `Verif/Props/ExactDomains.lean`, `Verif/Props/Networks.lean`
* Note: The property is false for some orders: C27_child_first constructs a model whose two tables have different states for the same variable; C27_state_order shows that only sets of states are compared. Proved for orders in which parents come first. Exact for all orders: tables are accepted iff each fits its node and agrees with those before it (C27_built); the model is consistent iff each also agrees with those after it (C27_exact), iff the tables are accepted in every order (C27_orders).

### C28 Cyclic graphs are rejected (proved)

Constructing a model over a directed graph succeeds exactly when the graph has no directed cycle. Quantifier: all directed graphs.

* Model: `nx.is_directed_acyclic_graph` as used by the constructors.
* Proof: Computed cycle test equals absence of a closed walk.
* Theorems: `C28_acyclic` in `Verif/Props/Graph.lean`
* Note: 

### C29 The joint distribution of a network sums to one (proved)

For every network of normalised tables, prob() summed over all joint states is one, and the joint restricted to an ancestral set is the product of its tables. Quantifier: all DAGs, all normalised tables.

* Model: `Spec.BN`: joint as product of tables.
* Proof: Induction on a topological order; the last node sums to one.
* Theorems: `C29_prob`, `C29_total`, `C29_prob_total`, `C29_ancestral`, `C29_example` in `Verif/Props/Networks.lean`
* Note: 

### C30 Sampling only produces possible records (proved)

Every record returned by model.sample assigns to each variable exactly one of its states and has positive joint probability, whatever the random generator returns; n samples are returned. Quantifier: all networks, all outcomes of the generator, all n.

* Model: `sample`, choices of the generator as arguments.
* Proof: Induction on the order of sampling: every drawn state has positive probability.
* Theorems: `C30_sampling`, `C30_no_samples`, `C30_example` in `Verif/Props/Networks.lean`
* Note: The generator is an arbitrary family of numbers in [0, 1), the order any topological order. n must be at least 1: n = 0 is refused.

### C31 Intervention is the truncated factorisation (proved)

model.intervention(**do) has the graph without the edges into the intervened variables and its joint is the product of the tables of the other variables where the intervened variables have the given values, and zero elsewhere. Quantifier: all structural causal models, all interventions.

* Model: `do_intervention` on `SCM`.
* Proof: Specification is the truncated factorisation; the constructed object represents it.
* Theorems: `C31_intervention`, `C31_other_factors`, `C31_example`, `C31_unknown_ignored` in `Verif/Props/Models.lean`
* Note: Joint equals the truncated factorisation; names that are not variables are ignored by intervention.

### C32 Interventions compose (proved)

Interventions on disjoint sets of variables commute and equal the simultaneous intervention; repeating the same intervention changes nothing. Quantifier: all models, all pairs of interventions.

* Model: Two interventions in sequence.
* Proof: Both sides represent the same truncated network.
* Theorems: `C32_compose`, `C32_commute`, `C32_idempotent` in `Verif/Props/Models.lean`
* Note: Equality of the resulting objects.

### C33 Converting an SCM to multinomial tables or to a Bayesian network keeps its distribution and its variable roles (partial)

to_multinomial() and to_bnet() keep graph, joint distribution and (to_multinomial) the endogenous/exogenous classification. Quantifier: all SCMs, including those whose endogenous list was given explicitly or that result from an intervention.

* Model: `to_multinomial`, `to_bnet`.
* Proof: Table by table; witnesses by evaluation.
* Theorems: `C33_to_multinomial_partial`, `C33_to_bnet_partial`, `C33_exact`, `C33_roles_lost`, `C33_explicit_roles_lost`, `C33_root_not_cast`, `C33_exogenous_with_parents` in `Verif/Props/Convert.lean`, `Verif/Props/Models.lean`
* Note: False: to_multinomial forgets the classification of the variables, leaves deterministic roots as they are and fails for exogenous variables with parents (proved on examples). Proved when the endogenous variables are those with parents.

### C34 Renaming the variables of a model is a pure relabelling (proved)

model.rename_vars(m) for injective m has the renamed graph and its joint at a renamed assignment equals the original joint. Quantifier: all models, all injective mappings.

* Model: `rename_vars` of models.
* Proof: The renamed network is the image under an injective map.
* Theorems: `C34_rename_causal`, `C34_rename_bnet`, `C34_endogenous_must_be_mapped`, `C34_unmapped_fails` in `Verif/Props/Models.lean`
* Note: Mapping injective on the variables; for causal models it must mention the endogenous ones, otherwise renaming fails (proved).

### C35 Fusing worlds on their exogenous variables gives the twin-network joint (proved)

The model built for a counterfactual query has one copy of the exogenous tables and, for the factual world and each hypothetical world, a copy of the endogenous tables (intervened, renamed); its joint is the product of them all. Quantifier: all SCMs, any number of hypothetical worlds.

* Model: `fusion_roots`.
* Proof: Product of the worlds given the shared roots.
* Theorems: `C35_fused_joint`, `C35_fusion` in `Verif/Props/Causal.lean`
* Note: Models that share the given roots and no other names (the code does not check this); the tables of the roots are those of the first model.

### C36 Variable elimination returns the exact posterior (proved)

VariableElimination(model).query(target, evidence) returns a factor over exactly the target variables whose value at each joint state is P(target, evidence)/P(evidence) computed from the full joint, whenever P(evidence)>0. Quantifier: all networks of normalised tables, all targets, all evidence with positive probability, all states.

* Model: `Inference.*`: `VariableElimination.compile/run`, pruning, any order of python's sets.
* Proof: Loop invariant: the factors are partial sums of blocks of tables that partition the network; pruning lemmas (barren nodes sum to one, separated part factorises).
* Theorems: `C36_exact_posterior` in `Verif/Props/Inference.lean`
* Note: All four stores; exact arithmetic.

### C37 The answer does not depend on the elimination heuristic (proved)

Any two heuristics (built-in or user supplied) that return each variable to remove once give the same answer. Quantifier: all networks, all queries, all heuristics.

* Model: Order as an argument.
* Proof: Corollary of C36.
* Theorems: `C37_heuristic_irrelevant`, `C37_admissible` in `Verif/Props/Inference.lean`
* Note: Any order chosen by the heuristic.

### C38 Pruning irrelevant nodes does not change the query (proved)

minimalize(model, target, evidence) keeps every target, and the posterior of the target computed from the pruned model equals that of the full model; the removed nodes are exactly the barren nodes and those disconnected from the target once edges out of evidence are cut. Quantifier: all networks, all targets and evidence.

* Model: Preprocessing of queries.
* Proof: Corollary of C36 with and without pruning.
* Theorems: `C38_pruning` in `Verif/Props/Inference.lean`
* Note: 

### C39 Conditional queries return the conditional distribution (partial)

query(target, conditioning=C, evidence=e) returns P(target|C,e): its value is P(t,c,e)/P(c,e) where that is defined and 0 where P(c,e)=0, and sums to one over the target for every possible configuration of C. Quantifier: all networks, all disjoint targets, conditioning and evidence.

* Model: `conditional` queries.
* Proof: Ratio of two sums of C36.
* Theorems: `C39_conditional_partial`, `C39_conditional_any_store`, `C39_sums_to_one`, `C39_pruned`, `C39_exact`, `C39_zero_evidence`, `C39_exact_example` in `Verif/Props/ExactConditional.lean`, `Verif/Props/Inference.lean`
* Note: Proved for evidence of non-zero probability. False without it: evidence that is impossible through a pruned-away node gives a non-zero answer (counterexample proved). Exact for the default store: the answer is the conditional distribution of the pruned network for all evidence (C39_pruned), right at a joint state if and only if P(c, e) is not zero or the pruned network gives the joint state probability zero (C39_exact).

### C40 Impossible evidence gives an all-zero answer, never NaN (proved)

With the default store, a query whose evidence has probability zero in the pruned model returns a table of zeros. Quantifier: all networks, all impossible evidence.

* Model: Impossible evidence.
* Proof: 0/0 = 0 of C04 in the last normalisation.
* Theorems: `C40_impossible_evidence` in `Verif/Props/Inference.lean`
* Note: 

### C41 Ill-formed queries are refused (partial)

Repeated targets, targets that are also evidence (or conditioning) and unknown variables raise before any computation and leave the inference object's compiled state unchanged. Quantifier: all queries, all histories of previous queries.

* Model: Refusals of `compile`/`query` and the state of the object afterwards.
* Proof: Case analysis on the checks; witnesses for what is accepted.
* Theorems: `C41_refused_partial`, `C41_exact`, `C41_exact_cond`, `C41_recorded`, `C41_history`, `C41_stale_answer`, `C41_repeated_conditional`, `C41_exact_example` in `Verif/Props/ExactRefusals.lean`, `Verif/Props/Inference.lean`
* Note: False: a query refused for an unknown name overwrites the recorded target and evidence of a compiled object, whose run() then answers from the old pruned model, and conditional queries accept repeated targets (both proved). Proved: all other refusals. Exact: a query is answered if and only if its names are in order (C41_exact; C41_exact_cond for conditional queries without repeated targets); what a refused query leaves behind is its target and evidence and nothing else (C41_recorded), and no later query depends on it (C41_history).

### C42 Causal queries compute the interventional distribution (proved)

causal_query(T, do, evidence) returns P(T | do, evidence) computed from the truncated factorisation. Quantifier: all SCMs, all interventions, targets, evidence with positive probability under the intervention.

* Model: `CausalInference.compile/query/_preprocess`.
* Proof: C31 then C36.
* Theorems: `C42_interventional`, `C42_unknown`, `C42_do_wins`, `C42_example` in `Verif/Props/Causal.lean`, `Verif/Props/CausalEx.lean`
* Note: Evidence that contradicts the intervention is overwritten by it (C42_do_wins).

### C43 Counterfactual queries compute the counterfactual distribution (partial)

counterfactual_query(T, do, evidence) returns sum_u P(u)[V(u) agrees with evidence][T_do(u)=t] / sum_u P(u)[V(u) agrees with evidence]. Quantifier: all SCMs with degenerate endogenous tables, all interventions, targets, evidence with positive probability.

* Model: `counterfactual_query` through the twin network.
* Proof: C31 for each world, C35, C36; names are injective for fresh names.
* Theorems: `C43_counterfactual_partial`, `C43_one_world_partial`, `C43_name_collision`, `C43_example`, `C43_example_value` in `Verif/Props/Causal.lean`, `Verif/Props/CausalEx.lean`
* Note: False when a variable has the name of a copy (wrong answer, proved). Proved for endogenous interventions with a child in their world, endogenous targets and new names.

### C44 Counterfactual queries succeed for every intervention on model variables (partial)

A counterfactual query whose intervened, target and evidence variables all belong to the model, with positive-probability evidence, returns an answer rather than failing. Quantifier: all SCMs, all interventions including those on variables without children.

* Model: Which counterfactual queries are answered.
* Proof: As C43; witnesses for the rest.
* Theorems: `C44_answered_partial`, `C44_childless`, `C44_exogenous_do`, `C44_exogenous_target`, `C44_intervened_target` in `Verif/Props/CausalEx.lean`
* Note: False: interventions on childless or exogenous variables fail (proved on examples here; exactly which queries are answered is C90). Proved for the other queries.

### C45 Consistency: an intervention that agrees with the evidence changes nothing (proved)

If the evidence contains X=x, the counterfactual answer for T under do(X=x) equals the ordinary posterior of T given the evidence. Quantifier: all SCMs, all evidence.

* Model: Consistency.
* Proof: Probabilities of C43 compared under the evidence.
* Theorems: `C45_consistency`, `C45_example_value` in `Verif/Props/Causal.lean`, `Verif/Props/CausalEx.lean`
* Note: For the queries that the code answers (see C44).

### C46 Probabilities of causation (partial)

prob_necessity, prob_sufficiency and prob_necessity_sufficiency return the corresponding counterfactual probabilities; they lie in [0,1] and satisfy PNS = P(x,y) PN + P(x',y') PS for binary cause and effect. Quantifier: all SCMs, all binary cause/effect pairs.

* Model: `prob_necessity`, `prob_sufficiency`, `prob_necessity_sufficiency`.
* Proof: C43 and arithmetic of events.
* Theorems: `C46_necessity_partial`, `C46_sufficiency_partial`, `C46_necessity_sufficiency_partial`, `C46_range_partial`, `C46_identity_partial`, `C46_example`, `C46_childless` in `Verif/Props/Causal.lean`, `Verif/Props/CausalEx.lean`
* Note: Values, range and identity proved for endogenous causes with a child; other causes fail (proved on an example here, for all models in C90).

### C47 True/false states are identified independently of their order (partial)

identify_true_false returns the two states of the domain, does not depend on the order in which they are listed, and refuses non-binary or mixed-type domains. Quantifier: all variable names, all domains.

* Model: `identify_true_false`.
* Proof: Case analysis on strings and types of states.
* Theorems: `C47_the_states`, `C47_refused`, `C47_order_partial`, `C47_exact`, `C47_exact_list`, `C47_case`, `C47_examples`, `C47_exact_example` in `Verif/Props/ExactStates.lean`, `Verif/Props/Util.lean`
* Note: Order independence exact: it fails if and only if the two states are different strings with the same lower-case form, that of the name followed by 0, 1 or 2 (C47_exact, C47_exact_list; C47_case is a witness); other parts proved in full.

### C48 Inference from data returns relative frequencies (proved)

LaplaceInference.query(T, evidence) at t is (number of rows agreeing with t and the evidence)/(number of rows agreeing with the evidence), for complete data within the domains. Quantifier: all data sets, all queries with at least one matching row.

* Model: `LaplaceInference.run`, `to_counts`, `filter_data`.
* Proof: Counting over rows of the frame.
* Theorems: `C48_frequency`, `C48_conditional`, `C48_no_records`, `C48_missing` in `Verif/Props/Data.lean`
* Note: For complete data within the domains with a matching record; without one the query raises ZeroDivisionError (C48_no_records); C48_missing shows what happens with missing values.

### C49 max_log_likelihood bounds log_likelihood (partial)

For every data set, the log-likelihood obtained with the empirical conditional tables is at least the one obtained with any other tables over the same decomposition graph. Quantifier: all data sets, all graphs, all tables.

* Model: `max_log_likelihood`, `log_likelihood`.
* Proof: Gibbs' inequality over the reals, applied to each family of the decomposition graph.
* Theorems: `C49_empirical`, `C49_model`, `C49_impossible`, `C49_missing_value`, `C49_bound`, `C49_any_network`, `C49_max_partial`, `C49_no_exogenous_parent`, `C49_deterministic`, `C49_no_records`, `C49_missing` in `Verif/Props/QLikelihood.lean`, `Verif/Props/QLikelihoodEx.lean`
* Note: max_log_likelihood is the likelihood with the relative frequencies, and it is at least the one of any network over the decomposition graph and the log_likelihood of any model with the same graph, for every store, every order of python's sets and every selection of variables. Needed: complete non-empty data, an acyclic decomposition graph (C67), an exogenous parent for each endogenous variable, equations given as tables, and records that are possible. Witnesses show what the code does without each of these.

### C50 Interval results are the tight envelope of the precise ones (proved)

The interval returned by multi-model inference (from_precise, or [min,max] for scalars) contains the value of every precise model and both bounds are attained. Quantifier: all non-empty lists of models/factors, all states.

* Model: `IntervalProbFactor.from_precise`, multi-model queries.
* Proof: Minimum and maximum over a finite list.
* Theorems: `C50_envelope`, `C50_restrict`, `C50_pair`, `C50_scalars`, `C50_refused`, `C50_example`, `C50_nan` in `Verif/Props/Interval.lean`
* Note: For finite values (C50_nan shows what nan does).

### C51 Multi-model inference always answers for the current models (partial)

After any sequence of set_models, add_models, compile and query calls, a query aggregates over exactly the models currently set, and with no models it is refused. Quantifier: all histories of calls.

* Model: Objects with shared model lists: histories of calls on a heap.
* Proof: Invariant over histories; witnesses for aliasing.
* Theorems: `C51_current_partial`, `C51_shared`, `C51_caller_list`, `C51_emcc` in `Verif/Props/Multi.lean`
* Note: False when two objects share a list (C51_shared) and for EMCC, which replaces models that were set (C51_emcc). Proved for histories in which no list held by another object is changed.

### C52 Incremental compilation yields after every batch and stops at the requested number of runs (proved)

compile_incremental(step) yields after adding each batch of step models, the number of models grows by step each time and the loop ends as soon as it reaches num_runs. Quantifier: all num_runs, all positive steps.

* Model: `compile_incremental` as a sequence of yields.
* Proof: Induction on batches.
* Theorems: `C52_incremental`, `C52_final`, `C52_zero` in `Verif/Props/Multi.lean`
* Note: The final number of models exceeds num_runs by less than step when step does not divide what is missing.

### C53 Learning objects and learned models correspond (partial)

After generating n models, learn_objects[i] is the run that produced models[i]; repeated runs accumulate; this must hold whatever the thread schedule in parallel mode. Quantifier: all numbers of models, all thread schedules.

* Model: Thread pool as a permutation of completions.
* Proof: All schedules; witness for the mismatch; `C53_exact` compares the two lists place by place.
* Theorems: `C53_sequential`, `C53_parallel_partial`, `C53_parallel`, `C53_refused`, `C53_exact`, `C53_exact_distinct`, `C53_exact_example` in `Verif/Props/ExactThreads.lean`, `Verif/Props/Multi.lean`
* Note: False with threads (C53_parallel). Proved without threads; with threads objects and models agree up to order; C53_exact says exactly when they correspond.

### C54 The learning loop performs at most max_iter steps and records each of them (partial)

run(data, max_iter) performs between min(1,max_iter) and max_iter steps, stops at the first step after which the stopping rule holds, and model_evolution is the prior followed by the model after every step. Quantifier: all stopping rules, all max_iter, all update functions.

* Model: `IterativeParameterLearning.run`.
* Proof: Induction on steps, any learner.
* Theorems: `C54_loop`, `C54_first_run`, `C54_unlimited`, `C54_function`, `C54_second_run` in `Verif/Props/Iterative.lean`
* Note: Any learner. True for the first run of an object; a second run keeps the models of the first (witness), so the evolution then is the old one followed by the new models (C54_loop).

### C55 Running EM again learns again (partial)

A second call of run on the same EM object learns from the new data in the same way as a fresh object would. Quantifier: all histories of runs.

* Model: EM `run` twice on one object.
* Proof: State after the first run; theorem that nothing is learned.
* Theorems: `C55_no_learning`, `C55_second_run`, `C55_stops_early`, `C55_first_step_partial` in `Verif/Props/Learning.lean`, `Verif/Props/LearningEx.lean`
* Note: False of the code: the set of converged variables survives a run, so once all trainable variables have converged every later run returns the prior whatever its data (C55_no_learning, for all networks, data and bounds; C55_second_run is a witness). Even with nothing converged the second run may stop after one step, because its first model is compared with the last model of the first run (C55_stops_early). What holds: with nothing converged the second run starts as a fresh one, up to and including its first step.

### C56 EM only changes trainable variables and keeps tables normalised (proved)

After any number of EM steps every non-trainable table is unchanged and every re-estimated exogenous table is non-negative and sums to one. Quantifier: all models, data sets, numbers of steps.

* Model: `ExpectationMaximization.step`.
* Proof: Table by table; normalisation of C20.
* Theorems: `C56_run`, `C56_unbounded`, `C56_history`, `C56_example` in `Verif/Props/Learning.lean`, `Verif/Props/LearningEx.lean`
* Note: For trainable variables that are roots and never observed (the exogenous variables), any stopping rule, any admissible order and set iteration, any history of runs; records must be possible under the prior and in each something must be observed that is not separated from the trainable variable (else the query has no evidence).

### C57 Expected counts count each record once (partial)

The weights with which EM uses the distinct observations add up to the number of records. Quantifier: all data sets, including those with missing values.

* Model: `_get_obs_counts`, `DataDepAnalysis`.
* Proof: Counting of rows that agree with a pattern.
* Theorems: `C57_weights_partial`, `C57_at_least`, `C57_answered`, `C57_exact`, `C57_double`, `C57_empty`, `C57_exact_example`, `C57_apart` in `Verif/Props/Data.lean`, `Verif/Props/ExactCounts.lean`
* Note: False with different missing values in different records (C57_double) and for records without a relevant observation (C57_empty). Exact: there are weights if and only if every record has a relevant observation (C57_answered), and they add up to the number of records if and only if no record agrees with the pattern of another that is not its own (C57_exact); so when all records miss the same columns.

### C58 An EM step never decreases the likelihood (partial)

The likelihood of the data under the exogenous distribution after an EM step is at least the one before it. Quantifier: all models with degenerate equations, all data with positive probability.

* Model: Likelihood after an EM step.
* Proof: Gibbs' inequality over any Archimedean ordered field, by comparison of products of powers.
* Theorems: `C58_step_partial`, `C58_run_partial`, `C58_end_partial`, `C58_mixed`, `C58_run_example`, `C58_example` in `Verif/Props/LearningEx.lean`, `Verif/Props/Likelihood.lean`
* Note: Exact arithmetic over any Archimedean ordered field, hidden roots (the exogenous variables of causal models), and the same columns observed in all records: a step does not lower the likelihood, and neither does a whole run. Without the last condition the statement is false (C58_mixed): a record with missing values also counts the records that agree with it.

### C59 Expected counts respect observed parents (partial)

When a trainable variable has observed parents, a record only contributes to the counts of its own parent configuration. Quantifier: all models, all records.

* Model: Expected counts with observed parents (`Learn/EM.lean`).
* Proof: The computed counts are sums of posteriors of what is hidden, which do not depend on the states of observed parents (`C59_broadcast`); a possible record has a completion of positive probability, and changing an observed state in it gives a cell that is counted too often. So the counts are right exactly if nothing observed could have been different (`C59_exact`).
* Theorems: `C59_counts`, `C59_own_configuration_partial`, `C59_broadcast`, `C59_other_configurations`, `C59_observed_parent`, `C59_exact`, `C59_exact_example` in `Verif/Props/ExactExpectation.lean`, `Verif/Props/Learning.lean`, `Verif/Props/LearningEx.lean`
* Note: C59_exact says exactly when it holds: whatever is observed of a variable and its parents has one state only. False of the code: the posterior has no axis for the observed parents and is broadcast over all their configurations (C59_broadcast for all networks; C59_observed_parent is a witness, C59_other_configurations says that the count is strictly too large). Proved when neither the variable nor a parent is observed.

### C60 Distinct observations are kept once, in order (proved)

The list of distinct observation patterns contains every pattern of the data exactly once, keeping the first occurrence. Quantifier: all data sets.

* Model: `DataDepAnalysis`: distinct observations.
* Proof: Induction on the rows.
* Theorems: `C60_first`, `C60_exactly_once`, `C60_patterns` in `Verif/Props/Data.lean`
* Note: Equality of patterns is equality of python dictionaries.

### C61 The gradient objective is the negative log-likelihood of the component (partial)

negative_log_likelihood(theta) equals minus the sum over records of log sum_u theta_u [equations give the record at u], and is infinite exactly when some observed record is impossible. Quantifier: all data, all theta, all models in which each endogenous child has one exogenous parent.

* Model: `learning/parameter/gradient.py`: the objective and the update.
* Proof: Sum over records of logs over exogenous states; the optimiser is a parameter.
* Theorems: `C61_built`, `C61_objective_partial`, `C61_childless`, `C61_not_counted`, `C61_order`, `C61_decomposes`, `C61_total`, `C61_updated`, `C61_deterministic`, `C61_two_parents`, `C61_names` in `Verif/Props/Gradient.lean`, `Verif/Props/GradientEx.lean`
* Note: Proved for models with tables (cast equations): the objective is minus the sum over the counted records of log sum_u theta_u prod P(v|pa), infinite exactly when a counted record is impossible; smaller objective = larger likelihood; over all exogenous variables the objectives add up to minus the log-likelihood of the model. Witnesses: deterministic factors give a KeyError, two exogenous parents are given the same state, records with missing values are left out, and a variable whose name contains another name cannot be updated. The optimiser of scipy is a parameter.

### C62 Asking for the domains of a variable returns that variable's domain only (partial)

get_domains(v) with a single variable name returns exactly the domain of v. Quantifier: all models and names.

* Model: `DiscreteDAGModel.get_domains`.
* Proof: Membership versus substring; witness.
* Theorems: `C62_single_partial`, `C62_exact`, `C62_parts`, `C62_list`, `C62_substring`, `C62_exact_example` in `Verif/Props/ExactExport.lean`, `Verif/Props/Networks.lean`
* Note: The property is false: with a single name the code tests substrings (C62_substring). It holds exactly for names of which no other name is a substring (C62_exact, both directions).

### C63 UAI save/read round-trips a Bayesian network (partial)

Writing a network in UAI format and reading it back gives, up to the canonical renaming, the same graph and the same tables. Quantifier: all networks.

* Model: `readwrite/bnread.py`, `bnwrite.py`: characters of the UAI format.
* Proof: The reader inverts the writer on tokens, induction on tables.
* Theorems: `C63_round_trip_partial`, `C63_joint`, `C63_names_small`, `C63_isolated`, `C63_names`, `C63_exponent`, `C63_indices` in `Verif/Props/Uai.lean`
* Note: proved for networks in which every variable has an arc, no written name of a parent is contained in the one of its child and all probabilities are printed without exponent; false otherwise, with a witness for each condition

### C64 UAI save/read round-trips a structural causal model (partial)

Writing an SCM in UAI format and reading it back gives, up to renaming, the same graph, exogenous tables and equations. Quantifier: all SCMs.

* Model: `readwrite/scmread.py`, `scmwrite.py`.
* Proof: As C63, with the renaming of states.
* Theorems: `C64_round_trip_partial`, `C64_labels`, `C64_constant`, `C64_isolated`, `C64_exponent` in `Verif/Props/UaiScm.lean`
* Note: Writing and reading keeps graph, endogenous variables, equations and exogenous tables, up to the renaming, for connected models with printable numbers whose endogenous variables are the ones with parents. It fails for uncast equations whose states are not 0, 1, ..., constants, isolated variables and numbers printed with an exponent.

### C65 Export to pgmpy passes the right table (partial)

The 2-D table handed over for P(X|pa) has in row i, column j the value of P(X = i-th state | j-th parent configuration). Quantifier: all conditional tables, any number of parents and cardinalities.

* Model: `conversion/pgmpy.py` export.
* Proof: Index calculus of the reshaped matrix.
* Theorems: `C65_table_partial`, `C65_exact`, `C65_raises`, `C65_first`, `C65_order`, `C65_first_example` in `Verif/Props/ExactExport.lean`, `Verif/Props/Pgmpy.lean`
* Note: for factors whose variable comes last, exact: exported, and then correctly, if and only if there is at most one parent or the first parent has as many states as the variable (C65_exact); with the variable before its parent the matrix is transposed, which is right exactly for symmetric tables (C65_first); C65_order is a witness

### C66 C-components partition the endogenous variables (proved)

endo_ccomponents are pairwise disjoint and cover every endogenous variable that has an exogenous parent; two endogenous children of the same exogenous variable are in the same component. Quantifier: all SCMs.

* Model: `ccomponents`, `endo_ccomponents`, `exo_graph`.
* Proof: Components as classes of an equivalence relation.
* Theorems: `C66_disjoint`, `C66_cover`, `C66_together`, `C66_minimal`, `C66_get`, `C66_example`, `C66_omitted` in `Verif/Props/Components.lean`
* Note: C66_omitted: endogenous variables without exogenous parent are in no component.

### C67 The decomposition graph is a DAG (partial)

qgraph contains the endogenous graph and is acyclic, so that the quasi-network needed for the likelihood can be built. Quantifier: all SCMs.

* Model: `get_qgraph`.
* Proof: Order of outside parents; witness of a cycle.
* Theorems: `C67_contains`, `C67_acyclic_partial`, `C67_markovian_partial`, `C67_cyclic`, `C67_exact`, `C67_built`, `C67_exact_example` in `Verif/Props/Components.lean`, `Verif/Props/ExactDecomp.lean`
* Note: Acyclicity is false in general: C67_cyclic gives a semi-Markovian model whose graph has a cycle for every topological order. Proved when outside parents of a component come before its members, and for Markovian models. Exact: the graph is acyclic, and the network is built, iff some order of the endogenous variables suits it (C67_exact, C67_built).

### C68 The binary-tree store represents its table (proved)

Looking up any joint state in the tree built from a non-negative table returns the table's value. Quantifier: all non-negative tables.

* Model: `btreestore.py`, `btreeops.py`.
* Proof: Induction on the tree.
* Theorems: `C68_tree`, `C68_store`, `C68_no_lookup`, `C68_copy_constant`, `C68_copy_node`, `C68_negative_end`, `C68_negative`, `C68_default` in `Verif/Props/BTree.lean`
* Note: The tree built from a non-negative table has the values of the table, read off with is_on_left; get_value and all other operations are not implemented in the code. Found besides: copies of constant stores, default data for several variables and negative ends are refused.

### C69 Derived factors do not share mutable data with their source (partial)

Writing into a factor obtained by restriction never changes the factor it was obtained from. Quantifier: all stores, all histories of restrictions and writes.

* Model: Heap model of stores: references and writes.
* Proof: Separation invariant over programs.
* Theorems: `C69_arrays`, `C69_arrays_write`, `C69_trees_partial`, `C69_tree_same_node`, `C69_tree_shares`, `C69_tree_shares_back`, `C69_shallow` in `Verif/Props/Sharing.lean`
* Note: Holds for the three array stores in every program (one-dimensional arrays: without copy(deep=False)). For trees proved when every written store was made by the constructor or copy() and has not lent nodes; without that it fails, with witnesses in both directions.

### C70 powerset enumerates every subset once (proved)

powerset(xs) has 2^n elements, each a sub-sequence of xs, all different when the elements are. Quantifier: all finite sequences.

* Model: `powerset`.
* Proof: Enumeration by size; no duplicates.
* Theorems: `C70_powerset` in `Verif/Props/Util.lean`
* Note: 

### C71 Reading with an incomplete observation (partial)

get_value with some variables unobserved: what it returns does not depend on the representation of the factor. Quantifier: all factors, all observations of some of their variables, all representations.

* Model: `get_value` with too few variables.
* Proof: What each store returns.
* Theorems: `C71_incomplete_observation`, `C71_completed` in `Verif/Props/Reading.lean`
* Note: The statement is false; the theorem says for each of the four stores what is returned: the first matching cell (list, numpy1d, numpy with one variable left), or an array or dictionary instead of a number (numpy with more variables left, treedict).

### C72 Markov blankets with hidden variables separate (proved)

Given the observed variables in markov_blanket(dag, v, hidden), the other observed variables are independent of v; when nothing is hidden the result is the set of parents, children and other parents of children. Quantifier: all acyclic graphs, all networks over them, all sets of hidden variables.

* Model: `graphutils.markov_blanket` with hidden variables, `dcon_nodes`.
* Proof: C24 with the blanket as separator.
* Theorems: `C72_hidden_blanket`, `C72_nothing_hidden` in `Verif/Props/Separation.lean`
* Note: Independence holds for all observed variables outside the result together. The result also contains hidden variables that are connected to the target.

### C73 Dropping separated observations changes no posterior (proved)

The minimal observations that get_minimal_obs_blanket makes of a record give the same distribution of the target as the whole record. Quantifier: all networks, all records of positive probability, all targets not observed in them.

* Model: `DataDepAnalysis.get_minimal_obs_blanket`.
* Proof: C24.
* Theorems: `C73_minimal_observations` in `Verif/Props/Separation.lean`
* Note: For records of positive probability that do not observe the target.

### C75 Conversion to pgmpy and back keeps a network (partial)

toPgmpyBNet followed by toBCauseBNet gives a network with the same variables, parents, states and tables. Quantifier: all networks, all representations of their factors.

* Model: pgmpy import and export.
* Proof: Inverse index maps.
* Theorems: `C75_import`, `C75_export_partial`, `C75_net_partial`, `C75_round_trip_partial`, `C75_isolated`, `C75_unset` in `Verif/Props/Pgmpy.lean`
* Note: the import is proved for all tables; the round trip for networks in which every variable has an arc and the export of every factor is right (C65); an isolated variable is lost (C75_isolated); the constructor and get_value of pgmpy are modelled from their documentation

### C74 The submodel on an ancestral set is the marginal (partial)

submodel(nodes), for nodes that contain all their parents, returns a network on these nodes with the marginal distribution of the whole network. Quantifier: all networks, all sets of nodes closed under parents.

* Model: `submodel`.
* Proof: The call raises; the intended call gives the marginal.
* Theorems: `C74_type_error`, `C74_keywords_partial` in `Verif/Props/Submodel.lean`
* Note: submodel raises a TypeError on every model because the arguments of builder are given by position. With keyword arguments the result would be the marginal network.

### C76 The binary tree splits where most is gained (partial)

_best_split_point returns a variable and a split of its states whose information is at least that of every other split. Quantifier: all non-negative tables with different entries.

* Model: `_best_split_point`.
* Proof: Loop invariant shows which split is kept; witness.
* Theorems: `C76_last_split`, `C76_not_best` in `Verif/Props/BTree.lean`
* Note: Does not hold: info_max is never updated, so the last splittable variable is always chosen; proved for all tables, with a table on which another split has more information.

### C77 log_likelihood is the log-probability of the records (proved)

For a model whose exogenous variables have no endogenous parents, whose endogenous variables each have an exogenous parent and whose decomposition graph is acyclic, log_likelihood(data) is the sum over the records of the logarithm of the probability of their endogenous values: the conditional distributions given the parents in the decomposition graph multiply to the distribution of the endogenous variables. Quantifier: all models, all complete data frames, all topological orders and all orders of python's sets.

* Model: `log_likelihood`, `get_qbnet`.
* Proof: Tian's factorisation: the conditional given the decomposition parents from d-separation and induction on the order.
* Theorems: `C77_factorisation`, `C77_log_likelihood`, `C77_impossible`, `C77_exogenous_child` in `Verif/Props/Tian.lean`
* Note: For every logarithm (log(xy) = log x + log y on positive numbers), every store and every order of python's sets; equations as tables (C49_deterministic says what happens otherwise) and records of positive probability (C77_impossible: ValueError with arrays). C77_exogenous_child: a model with an exogenous variable caused by an endogenous one is accepted and the factorisation fails. C67_cyclic, C49_no_exogenous_parent: what happens without the other two conditions.

### C78 The factors of a component are an interventional distribution (proved)

The tables that get_qfactors returns for a component multiply to the probability of the values of the component when the values of all the other endogenous variables are imposed. Quantifier: all models as in C77, all components, all values of positive probability.

* Model: `get_qfactors`.
* Proof: Product over a component equals the sum over its exogenous variables of the equations: an intervention on the rest.
* Theorems: `C78_component` in `Verif/Props/Tian.lean`
* Note: For every store and every order of python's sets, at all values of the endogenous variables that have positive probability.

### C79 Arithmetic expressions over factors compute the same arithmetic on their cells (partial)

An expression built from factors and numbers with *, +, -, /, ** (sum out) and R (restrict) evaluates to a factor over the variables of the expression, in order of appearance; each of its cells is the value of the same expression on the cells of the factors, and its left variables are those the expression implies. In particular a factor without the summed variables can be taken out of a sum. Numbers may stand on either side of an operator. Quantifier: for every expression tree, every family of factors, every store type and every joint states.

* Model: `Factor.Operators`: expression trees.
* Proof: Induction on the tree with the laws of the stores.
* Theorems: `C79_expressions_partial`, `C79_same_cells`, `C79_take_out`, `C79_number_on_the_left`, `C79_other_number`, `C79_refused`, `C79_example` in `Verif/Props/Operators.lean`
* Note: Holds for expressions whose numbers are int or float and on the right of the operator; a number on the left, or of another type such as numpy.float64, raises AttributeError, and no expression containing one has a value.

### C80 Models filled at random are proper models (proved)

Whatever the generator returns, fill_random_factors turns a causal model whose exogenous variables are roots into one with zero-one equations and normalised marginals over the given states; randomize_factors gives new conditional tables to non-endogenous variables, in place or in a copy, and keeps the rest; BayesianNetwork.randomize_factors gives a normalised network. Endogenous variables, unknown states and changed states are refused. Quantifier: for every acyclic graph, all domains, every outcome of the generator with a non-zero number in each column, every store type.

* Model: `Model.Random`: `random_deterministic`, `fill_random_factors`, `randomize_factors`.
* Proof: Loop invariant on recorded states; each drawn table is a conditional table (C20) or an indicator column.
* Theorems: `C80_equation`, `C80_equation_none`, `C80_fill`, `C80_fill_new`, `C80_randomize`, `C80_network`, `C80_example`, `C80_example_values`, `C80_endogenous_refused`, `C80_no_states`, `C80_other_states` in `Verif/Props/Random.lean`
* Note: The generator is an argument: what it returns is any list of numbers (not negative, a non-zero one in each column) and any states. Exact numbers instead of floating point.

### C81 EMCC: from the records to the bounds of a causal query (partial)

EMCC draws the exogenous distributions at random, fits them to the records by expectation maximisation on the causal model, and repeats this. Whatever is drawn, when the records can be produced by the equations and observe no exogenous variable, every run succeeds; each fitted model has the graph, the states and the equations of the given model and normalised non-negative exogenous distributions; the probability of the records under it is at least that under the drawn model. The answer to an interventional query is an interval factor whose bounds at each state are the least and the greatest of the interventional probabilities in the fitted models. Quantifier: for all causal models with exogenous roots, all records, all draws, numbers of models and of iterations, all stopping rules, interventions and targets.

* Model: `Learn.EMScm`: `ExpectationMaximization`, `SimpleModelAggregatorEM` and `EMCC` on causal models, with the drawn numbers as argument. The frame that the runs share is threaded through them, since each run adds its missing columns to it.
* Proof: A model without deterministic factors is the image of a network (`liftScm`), and every step of learning commutes with this map (`Learn.EMScmLemmas`), so that C56 and C58 apply; C80 gives positive exogenous tables, which make every record possible; C42 and C50 give the bounds.
* Theorems: `C81_single`, `C81_likelihood_partial`, `C81_generate`, `C81_evidence`, `C81_query`, `C81_example`, `C81_example_values`, `C81_no_models`, `C81_not_cast`, `C81_impossible` in `Verif/Props/Emcc.lean`, `Verif/Props/EmccEx.lean`
* Note: Proved for models whose equations have been cast to tables (otherwise learning fails, C81_not_cast) and records that the equations can produce (C81_impossible). That the likelihood does not decrease is proved when the same columns are observed in all records (see C58). The generator, the order of sets and the comparison of tables are arguments; exact numbers instead of floating point. Bounds are those of the fitted models, not of all models compatible with the records.

### C82 Counterfactual bounds from several models (partial)

A counterfactual query, prob_necessity, prob_sufficiency or prob_necessity_sufficiency put to a CausalMultiInference object returns the least and the greatest of the values that its current models give, or all of them in the order of the models when no interval is asked for. For EMCC the models are the fitted ones, and the bounds lie between zero and one; the probability of necessity is defined as soon as one record has the cause and the effect. True and false states that are not given are those of the current models. Quantifier: for all non-empty lists of causal models with the same states of the effect, all causes and effects, compiled or not, all draws and records.

* Model: `Inference.MultiCausal`: the object with its models, its inference objects and the attribute `_model`, which the constructor leaves unset; the queries are those of `Inference.Causal`. `identify_true_false` is a parameter (it is the subject of C47).
* Proof: `multi_query`: if every model answers with a factor over the same variables and states, the object answers with their envelope (C50). C43 and C46 give the answers of the models, C81 the fitted models; a record with the cause and the effect makes this case possible in all of them.
* Theorems: `C82_counterfactual_partial`, `C82_necessity_partial`, `C82_sufficiency_partial`, `C82_necessity_sufficiency_partial`, `C82_emcc_necessity_partial`, `C82_emcc_sufficiency_partial`, `C82_emcc_both_partial`, `C82_current`, `C82_interval`, `C82_unset`, `C82_stale`, `C82_stale_example`, `C82_example_values`, `C82_example_list`, `C82_example` in `Verif/Props/MultiCausal.lean`, `Verif/Props/MultiCausalEx.lean`
* Note: Proved with the conditions of C43 and C46 on the intervened variables and the names of the copies. The last sentence is false: the states are looked up in the first model of the last compilation, so that a new object raises AttributeError (C82_unset) and an object that was given other models uses the states of the old ones (C82_stale, C82_stale_example).

### C83 Gradient learning: separate optimisation gives the likeliest model (proved)

GradientLikelihood.run optimises each trainable exogenous variable on its own. Whatever the optimiser returns becomes the tables of a copy of the prior, the rest is kept, and further steps change nothing. If the optimiser finds for each variable a distribution with the least objective, then no causal model with the same equations, and other distributions of these variables, makes the records more likely; if it only does not increase the objectives, the records are at least as likely as under the prior. Endogenous variables and variables with values in the data are refused. Quantifier: for all causal models with exogenous roots in which no variable has two exogenous parents, all complete records, all optimisers, all numbers of iterations.

* Model: `Learn.Gdcc`: a `GradientLikelihood` object with the methods it inherits; scipy's `minimize` and the logarithm are parameters. Likelihood of the endogenous part of the records: `endoLik`.
* Proof: `endoLik_split` writes the likelihood as a product of one factor for each exogenous variable, which is `compLik` of C61, and a constant; `C61_order` says that the objective orders distributions as this factor does. A product of nonnegative maxima is a maximum.
* Theorems: `C83_run`, `C83_default`, `C83_refuses`, `C83_no_run`, `C83_compare`, `C83_maximum`, `C83_improves`, `C83_example_values`, `C83_example_refused`, `C84_example` in `Verif/Props/Gdcc.lean`, `Verif/Props/GdccEx.lean`
* Note: The equations have been cast to tables. scipy's minimize is an argument: that it finds least objectives is a hypothesis, met in C84_example. Without run, step fails (C83_no_run). Names: no name is a part of that of a trainable variable (the code tests with the operator in, see C61_names). Exact numbers; the logarithm is the real one.

### C84 GDCC: bounds over models of greatest likelihood (partial)

When the optimiser finds least objectives, every model that SimpleModelAggregatorGD returns has the equations of the given model and greatest likelihood among the models with these equations; any two of them give each record the same probability, so that they differ only in what the records do not determine. The answers of GDCC to interventional queries and its probabilities of necessity and sufficiency are the least and the greatest of the values in these models. Quantifier: for all causal models as in C83, all records that the equations can produce, all draws, numbers of models, interventions and targets.

* Model: `Gdcc.generate`, `Gdcc.compileObj`: one learning object for each draw, the shared frame threaded through; `MultiObj` of C82. `FindsLeast` says that the optimiser does its part, from whatever model on.
* Proof: C83 for each draw; C80 for the drawn prior. `C84_agree`: the mean of two maximisers would be likelier if they differed on a record (arithmetic and geometric mean). C42, C46, C50 and C82 for the bounds.
* Theorems: `C84_single`, `C84_generate`, `C84_agree`, `C84_query`, `C84_necessity_partial`, `C84_sufficiency_partial`, `C84_necessity_sufficiency_partial`, `C84_example`, `C84_example_values`, `C84_no_models`, `C84_not_cast` in `Verif/Props/GdccEx.lean`, `Verif/Props/GdccMulti.lean`
* Note: Proved with the conditions of C83, and for the probabilities of causation those of C43 and C46 (see C82). The bounds are those of the models that are returned, not of all models of greatest likelihood.

### C85 Interventional and observational queries agree where the graph says so (proved)

The answers of causal_query satisfy the rules of do-calculus with respect to the graphs of remove_ingoing_edges and remove_outgoing_edges and the separation of dsep_nodes: separated observations can be dropped, separated interventions can be replaced by observations, interventions from which neither target nor evidence is reached can be dropped. If the variables Z are not reached from X and separate X from the target in the graph without the edges out of X, then (P(T | X, Z).R(X=x) * P(Z)) ** Z, evaluated on factors returned by the observational queries, is the factor causal_query returns for do(X=x). Quantifier: for all structural causal models, targets, evidence, sets of imposed variables, elimination orders and stores for which the conditions have non-zero probability.

* Model: Nothing new is modelled: `Causal.causalQuery`, `VEObj.query`, `VEObj.queryCond`, the operations of factors and `DiGraph.removeIngoing`, `removeOutgoing`, `dSeparated`, `dsepNodes`. Reachability is the closure of the edge relation.
* Proof: `BN.cut d`: the network in which the children of the variables of `d` read the states of `d`. It is a network over the graph without the edges out of these variables; where they have the states of `d` its marginals are those without intervention (`cut_marg`), with them summed out those of the intervention (`cut_doMarg`, an ancestral set). `dsep_margs` (C24) in this network gives the exchange. An ancestral set without intervened variables has the same tables (`noEffect`). C36, C39 and C42 say what the queries return, C79 what the expression is.
* Theorems: `C85_observation`, `C85_exchange`, `C85_deletion`, `C85_adjustment`, `C85_observation_example`, `C85_exchange_example`, `C85_deletion_example`, `C85_adjustment_example`, `C85_confounded` in `Verif/Props/Adjust.lean`, `Verif/Props/AdjustEx.lean`
* Note: Structural causal models as in C42; conditions of non-zero probability; positivity P(x, z) > 0 for the adjustment. The third rule in its simple form (nothing is reached from the imposed variables). Without adjustment the numbers differ (C85_confounded). Exact numbers.

### C86 An equation read from rows computes the rows (partial)

DeterministicFactor.from_data_frame, given a frame in which every configuration of the other columns appears in one row, returns the equation of the left variable whose value at each configuration is the one in its row, whatever the order of rows and columns. A frame with the wrong number of rows is refused, and the frame of the caller is not altered when its cells are states. Quantifier: for all frames, domains, orders of rows and columns, left variables and stores.

* Model: `Factor.Frame`: columns and rows; a cell that is not a category becomes a given value `nan`; `sort_values` is insertion by codes (equal codes mean equal rows, so stability is not observable). The left variable is a string, membership in it is the test for a part.
* Proof: The state space is listed in the order of the codes (`pairwise_product`); sorting a permutation gives the one sorted list, and the order of whole rows gives the order of their beginnings (`sorted_prefixes`).
* Theorems: `C86_rows_partial`, `C86_count`, `C86_refused`, `C86_refused_example`, `C86_caller`, `C86_example`, `C86_left_first`, `C86_repeated`, `C86_names`, `C86_caller_example`, `C86_names_refused`, `C86_exact`, `C86_exact_example` in `Verif/Props/ExactFrame.lean`, `Verif/Props/Frame.lean`
* Note: Exact in the names (C86_exact): with the left variable last an equation is built iff no other name is a part of its name. Proved for the left variable in the last column when no name of a column is a part of its name. False otherwise: with the left variable first the rows are sorted by its values and the wrong function is built (C86_left_first); a name that is part of the left name raises (C86_names). Repeated and missing configurations of the right total number are not noticed (C86_repeated).

### C87 Bounds coincide where adjustment identifies the query (proved)

If some distributions of the exogenous variables make each record as probable as it is frequent, every model that GDCC learns has the frequencies of the records as its distribution of the endogenous variables. If further the variables Z are not reached from X and separate X from the target in the graph without the edges out of X, and every state of Z occurs in the records together with X=x, then both bounds of GDCC.causal_query for do(X=x) are the sum over z of #(t,x,z)/#(x,z) * #(z)/n, whatever the random starting points and the number of models. Quantifier: for all causal models as in C83, all complete records that some such model fits, all draws, numbers of models, targets and adjusting variables.

* Model: Nothing new is modelled: the objects of C84 and C85. `empirical`: relative frequency in the records; `Compatible`: some model with the equations fits the frequencies; `adjusted`: the formula with frequencies.
* Proof: `empirical_unique`: the quotients of a distribution and the frequencies at the records sum to at most the number of records, and their product is at least one, so all are one (`log x < x - 1`); what is not recorded has no mass left. The learnt models are likelier than any other (C84), so this applies to them. C85's `adjust_sum` then has the same value in all. `C87_optimiser` shows that optimisers as C84 asks for exist: the fitting model has the least objectives.
* Theorems: `C87_frequencies`, `C87_effect`, `C87_identified`, `C87_optimiser`, `C87_example` in `Verif/Props/Identified.lean`, `Verif/Props/IdentifiedEx.lean`
* Note: Conditions of C84 (equations cast to tables, one exogenous parent each, complete records, an optimiser that finds least objectives; C87_optimiser shows that there is one). Logarithms are real, probabilities in an ordered field embedded in the reals. Targets, X and Z are endogenous.

### C88 A saved model is the one that is read (partial)

After any sequence of calls of save, whichever fail, read gives the model that was saved last in that file, under whatever name the file is given, and a save does not change what other files hold. A .uai file gives the same tables over V0, V1, ... and 0, 1, ...; a .bif or .xmlbif file keeps names and states, provided that pgmpy reads back what it wrote. A network is not read as a causal model nor the other way round from .uai files, and other endings are refused. Quantifier: for all models, paths, disks, sequences of calls, formats and stores.

* Model: `IO.Files`: a disk (working directory, folders, texts of files), paths as `pathlib` normalises them, `save` and `read` with the text functions of C63, C64 and the conversion of C65, C75. The BIF writer and reader of pgmpy are parameters.
* Proof: `place`: where a name points to. The text that a file holds is a fold over the calls (`session_spec`); the ending of a name is that of its place (`format_place`), so every name of a file selects the same reader. The formats are C63, C64, C75 and C33; `C88_class` follows from the first line of the texts. `C88_same_file` and `C88_same_absolute` say exactly which spellings name the same file; `..` and links are not resolved and two leading slashes are taken as one, as on Linux.
* Theorems: `C88_save`, `C88_refused`, `C88_history`, `C88_class`, `C88_net_uai_partial`, `C88_scm_uai_partial`, `C88_net_bif_partial`, `C88_scm_bif_partial`, `C88_bif_order`, `C88_scm_bif_refused`, `C88_intervened_refused`, `C88_parts`, `C88_same_file`, `C88_same_absolute`, `C88_same_example` in `Verif/Props/ExactPath.lean`, `Verif/Props/Files.lean`
* Note: the formats under the conditions of C63, C64, C33 and C75; the BIF texts of pgmpy are parameters; BIF gives a wrong equation when the own variable is first

### C89 Answers respect the bounds given by observations and experiments (partial)

P(t | do(d)) answered by causal_query lies between P(t, d) and P(t, d) + 1 - P(d). prob_necessity_sufficiency lies between P(te | do(tc)) + P(fe | do(fc)) - 1 and each of the two; for a cause and an effect with two states it lies within the bounds of Tian and Pearl, and so do prob_necessity and prob_sufficiency; if the cause never prevents the effect the values are differences of probabilities. The bounds of GDCC for interventions and for necessity and sufficiency lie within the same bounds with the frequencies of the records. Quantifier: for all structural causal models, causes, effects, interventions, orderings and stores; for GDCC all complete data that some model with the equations fits, all numbers of runs and all random draws.

* Model: Nothing new is modelled. `did`, `both2`, `one1` abbreviate `BN.doMarg` and `BN.marg`; `TianPearl` lists the inequalities.
* Proof: The natural bounds use the network of C85 in which the children of the imposed variables see the imposed states (`doMarg_natural`). For the others, each exogenous state fixes what happens with and without the cause (`worlds_of`), so inequalities between probabilities are inequalities between numbers of events that hold in each state (`cfProb_count`). `C89_gdcc_…` apply this to each learnt model, whose probabilities are the frequencies by C87.
* Theorems: `C89_intervention`, `C89_frechet_partial`, `C89_both_partial`, `C89_necessity_partial`, `C89_sufficiency_partial`, `C89_monotone_partial`, `C89_gdcc_intervention`, `C89_gdcc_both_partial`, `C89_gdcc_adjusted_partial`, `C89_example_values`, `C89_example`, `C89_gdcc_example`, `C89_monotone_example` in `Verif/Props/Bounds.lean`
* Note: Interventions in full; the probabilities of causation with the conditions of C46 on names and on the cause having a child; GDCC with the conditions of C84 and C87.

### C90 Which counterfactual queries are answered (proved)

counterfactual_query returns an answer exactly when every intervened variable has parents and a child that is not intervened in the same world, and every target is a variable with parents of an existing world, not intervened there and not asked for twice; every other query raises, whatever the evidence. prob_necessity_sufficiency, prob_necessity and prob_sufficiency return a number exactly for two different variables with parents of which the cause has a child. Quantifier: for all structural causal models without variables named like copies, all lists of interventions with existing states, all non-empty lists of targets; answers need evidence of non-zero probability.

* Model: Nothing new is modelled. `Answerable` and `CanCause` speak of the graph and the query only.
* Proof: Setting factors keeps the graph, so the fused graph is known whether or not the construction succeeds: its copies are ends of edges of the worlds (`cfModel_nodes`). A copy without edges is no node, its factor is among those set, and a list of factors with one for a variable outside the graph is refused (`ofList_outside`). The other refusals are C41 on the fused model. C43 gives the converse.
* Theorems: `C90_refused`, `C90_iff`, `C90_causation_iff`, `C90_example` in `Verif/Props/CfRefused.lean`
* Note: Exact characterisation. Assumes that the imposed states exist and that no variable is named like a copy; refusals are proved for every evidence, answers for evidence of non-zero probability.

### C91 Effects through a mediator are determined by observations (proved)

If M lies on all directed paths from X to the target, no path joins X and M in the graph without the edges out of X, and X separates M from the target in the graph without the edges out of M, then (P(M | X).R(X=x) * (P(T | M, X) * P(X)) ** X) ** M, evaluated on factors returned by observational queries, is the factor that causal_query returns for do(X=x). Both bounds of GDCC for this question are the same number, the formula with the frequencies of the records, although an unobserved variable may influence both X and the target. Quantifier: for all structural causal models in which the states of X and M have non-zero probability, all targets, elimination orders and stores; for GDCC all complete records that some model with the equations fits, all draws and numbers of models.

* Model: Nothing new is modelled. `Mediates` states the conditions with the graphs and the separation of the library; `frontDoor` is the formula over any probabilities, used with those of the model and with the frequencies.
* Proof: `front_door` from the rules of C85: the exchange for `X` and `M`, the exchange for `M` and the target with `X` imposed (separation in fewer edges, `dSeparated_sub`), the deletion of `X` when `M` is imposed, the adjustment for `X`. C36, C39, C42 and C79 for the library's expression; C87's frequencies for the learnt models.
* Theorems: `front_door`, `C91_front_door`, `C91_effect`, `C91_identified`, `C91_front_door_example`, `units_front`, `C91_example` in `Verif/Props/FrontDoor.lean`, `Verif/Props/FrontDoorEx.lean`
* Note: The states of X and M must have non-zero probability (or frequency); otherwise a conditional of the formula is 0/0.

### C92 Sampled records are independent and have the joint distribution (proved)

For each record and node, DiscreteDAGModel.sample picks the state in whose cell the draw of the generator falls; the states of a node cut [0,1) into cells as long as their probabilities given the parents in the record. So the draws that give records r1, ..., rn are exactly a box, and for independent uniform draws the probability of these records is the product of their joint probabilities. Quantifier: for all networks, topological orders, numbers of records, records and draws in [0,1).

* Model: `Model.Sampling` of C30, with the numbers that the generator returns as argument, one for each node and record, over an exact field. `BN.below`: the probabilities of the states listed before the one in question; `Cell`: the draw lies between this and this plus the probability of the state. `frame`: the data frame of given records.
* Proof: The search in the cumulative sums finds the cell (`cumSums_find`); a record keeps the cells of its nodes when a node is added (`RecOk.extend`). Cells of different states are disjoint (`cell_inj`), so the records in whose cells the draws fall are determined along the order (`cells_inj`). The set of draws is a box; its Lebesgue measure is the product of the sides.
* Theorems: `C92_box`, `C92_cells`, `C92_cell_in`, `C92_distribution`, `C92_record`, `C92_example` in `Verif/Props/SamplingDist.lean`
* Note: Exact arithmetic; the numbers of the generator are arguments, taken to be independent and uniform in C92_distribution.

### C93 Every network can be built and keeps its tables (proved)

Given the tables of a Bayesian network as lists of values in row-major order of their domains, the constructors of factors and of the model accept them, in whatever order the variables of a table and the factors are listed, with or without checks, and the object has the graph of the network and returns its probabilities. An object represents one network only. Quantifier: for all networks, orders of variables in tables, orders of factors and stores.

* Model: Nothing new is modelled. `buildNet` calls the constructors with the entries of the tables; `TableDom` says that a domain lists the node and its parents with their states.
* Proof: The value at a joint state is the entry at its row-major position (`assignmentSpace_getElem?`, C01). Each factor fits its node whatever has been set before (`setAll`).
* Theorems: `C93_build`, `C93_exists`, `C93_unique`, `C93_causal`, `C93_causal_build`, `C93_example` in `Verif/Props/BuildNet.lean`, `Verif/Props/SampleCols.lean`, `Verif/Props/Undetermined.lean`
* Note: Values in an exact field.

### C94 Causal models and networks are converted into each other without loss (proved)

causal_to_bnet turns every structural causal model, before or after interventions, into a network of multinomial tables with the same graph and distribution. bnet_to_causal accepts a network exactly when every variable with parents is a function of them, then keeps its graph, factors and distribution and makes the roots exogenous; otherwise it raises ValueError. The two are inverse to each other. Quantifier: for all models, networks and stores.

* Model: `causalToBnet` converts factor by factor and builds the network from the list; `fromModel` of C33 is `bnet_to_causal`.
* Proof: Every factor that is set fits its node (`setAll`). The first table with an entry other than zero and one is refused: `ofDict_refused` runs through the factors before it. The same lemma gives `C33_exact`.
* Theorems: `C94_causal_to_bnet`, `C94_bnet_to_causal`, `C94_net_round_trip`, `C94_model_round_trip`, `C94_holds`, `C94_example`, `C94_unset`, `C94_unset_example` in `Verif/Props/Convert.lean`
* Note: 

### C95 A model is rebuilt from the text of its graph and its factors (partial)

get_dag_str followed by the constructor that accepts a text gives back a model with the same parents, states and tables; for causal models also with the same exogenous variables. Quantifier: for all models whose names contain none of the characters [ ] | :.

* Model: `getDagStr`, and the constructors for a text: `ofDictText` of networks, and of causal models, where the default of `endogenous` runs through the characters of the text.
* Proof: C22 gives the graph that is read back; factors of nodes it does not contain are refused by networkx (`setAll_outside`). The refusal of causal models is by cases on the stages of the constructor.
* Theorems: `C95_network`, `C95_scm_text_fails`, `C95_scm_text_named`, `C95_holds`, `C95_example` in `Verif/Props/Convert.lean`
* Note: Exact: a network is rebuilt if and only if every variable has an arc. The code violates the property for isolated variables and for causal models whose endogenous variables are not named.

### C96 Sampling the endogenous variables gives independent records with their distribution (partial)

For every structural causal model, sampleEndogenous returns n records of the endogenous variables, as a data frame or as a list; for independent uniform draws the probability of given records is the product of the probabilities that the model gives to them. Any columns of the sampled records have the marginal distribution of these variables. Quantifier: for all causal models, topological orders, numbers of records, records and draws in [0,1).

* Model: `sampleEndogenous` selects the columns of `forwardSampling`. A deterministic factor raises TypeError, since its methods `sample` and `sample_conditional` need an argument that is not given.
* Proof: The draws that give the columns are the disjoint union, over the states of the other variables in all records, of the boxes of C92; the sum of the products is the product of the marginals. The first deterministic factor in the order is reached, since the nodes before it are sampled as in the network of C94 (`sampling_det`).
* Theorems: `C96_sampled`, `C96_distribution`, `C96_columns`, `C96_records_fail`, `C96_example`, `C96_det_example` in `Verif/Props/SampleCols.lean`
* Note: Exact: a model is sampled if and only if it has no deterministic factors, and then its endogenous variables have their distribution. The code violates the property for deterministic factors and for as_pandas=False.

### C97 Which records expectation maximisation can use (proved)

For records that are possible, the expected counts are obtained exactly when in every record, for every variable that is still learnt, something of the variable and its parents is missing and something is observed that is not separated from the variable. In particular a run on data with one record that gives a variable to be learnt and its parents fails, and complete records without a list of variables change nothing. Quantifier: for all networks, data frames, lists of variables, states of the learning object, orders and stopping rules.

* Model: Nothing new is modelled: `EM.expectation`, `obsCounts` and the query are those of C57 to C59.
* Proof: Without target all nodes are irrelevant, so that a query without target combines no factors (`query_nil`). Parents are never separated from their child (`parent_dcon`), hence a record that gives a variable and its parents leads to such a query. A loop that succeeds has treated every element (`foldlM_inv`), so that one bad record suffices. Conversely C59.
* Theorems: `C97_counts_iff`, `C97_needed`, `C97_step_fails`, `C97_run_fails`, `C97_complete_fails`, `C97_default`, `C97_example`, `C97_holds`, `C97_counts_example` in `Verif/Props/EMComplete.lean`
* Note: For all networks and data frames. The code fails on complete records, where the expected counts would be plain counts. The converse of C97_counts_iff needs possible records; that the step as a whole succeeds is C56.

### C98 Answers from sampled records approach the probabilities of the model (proved)

For records sampled from a model with independent uniform draws, the answer of inference from these records differs from the conditional probability in the model by epsilon or more, or does not exist, with a probability that is at most a constant over n; hence it tends to zero, for every target and all evidence of positive probability. Without evidence there is always an answer, its expected value is the marginal probability, and the bound is p(1-p)/(n epsilon^2). There is no answer with probability (1-q)^n for evidence of probability q. Quantifier: for all networks, targets, evidence of positive probability, states, numbers of records and tolerances, over all draws of the generator.

* Model: `framed` turns the records of `forwardSampling` (C92) into the data frame of `Laplace` (C48). The draws are a point of a cube, with Lebesgue measure.
* Proof: By C92 every point of the cube gives one of finitely many sequences of records, each with the product of the joint probabilities (`volume_eq`, `volume_le`). The answer is a quotient of numbers of records by C48 (`AskOk.answer`). The variance of the number of hits of independent draws is computed for finite sums (`Net/Chebyshev.lean`, which mentions no code); the quotient is near when both numbers are.
* Theorems: `C98_marginal`, `C98_posterior`, `C98_consistent`, `C98_unbiased`, `C98_answers`, `C98_no_answer`, `C98_example` in `Verif/Props/Consistent.lean`
* Note: The draws of numpy are modelled as independent uniform real numbers in [0, 1).

### C99 Expectation maximisation stops where the likelihood is greatest (partial)

When expectation maximisation has converged for the variables it learns, no other tables of these variables give the records a greater likelihood. In each step, a table stays as it is exactly when no other distribution with the same zeros has a greater likelihood, the other tables being given. Quantifier: for all networks, records, orders, numbers of iterations and reachable states of the learner.

* Model: Nothing new is modelled: the learner is that of C56 to C58. A `Variant` of a network has another distribution of one variable. Of the stopping rule it is only assumed that it accepts equal tables and no others; in floating point it may accept tables that differ a little.
* Proof: In terms of the records, a table that is left as it is is the mean of its posteriors (`newTable_rows`). The ratios of the probabilities of the records in a variant and in the network then have mean at most one, hence product at most one (`em_fixed_max`, by the inequality between x and exp(x - 1)). Conversely, if the table changes, Gibbs' inequality is strict (`em_strict_prod`). During a run, entries that become zero belong to states that no record allows (`excluded_step`), so that a positive prior is enough.
* Theorems: `C99_table_partial`, `C99_run_partial`, `C99_converges`, `C99_example`, `C99_zero`, `C99_two`, `C99_mixed`, `C99_frozen` in `Verif/Props/EMFixed.lean`
* Note: Proved for hidden roots and records with the same observed columns: for one step and each table that is re-estimated (both directions), and for whole runs that learn one root from a positive prior. False without these conditions, with witnesses: a prior with a zero (C99_zero), two roots (C99_two), different observed columns (C99_mixed), and a variable that counts as converged while others still change (C99_frozen). Exact arithmetic over any Archimedean ordered field; the stopping rule accepts only equal tables.

### C100 Nodes are reported as separated exactly when no network with the graph lets them depend (proved)

For disjoint sets of nodes the separation that the library computes holds exactly when the sets are independent in every network with the graph. Hence a node outside the result of dsep_nodes matters: some model with this graph, which the constructors accept, gives the targets another posterior when the node is observed as well. A set separates a node from all other nodes in every network exactly when it contains the Markov blanket of the node. Quantifier: for all acyclic graphs, disjoint sets of targets, nodes and evidence, store types, elimination orders and inference objects.

* Model: Nothing new of the code is modelled. `OnGraph` and `Indep` state what a network with a graph and independence are. The states of the networks that show a dependence are finite sets of pairs of numbers, used as names.
* Proof: A walk that connects two nodes (`active_of_connected`) carries one bit per step (`walkCircuit`): sources draw it, middle nodes pass it on, a collider compares the bits that arrive and sends the result down to its observed descendant, which observes that they agree. In this network (`Circuit.net`) the ends always agree given the evidence, so that opposite states are possible apart and impossible together (`dsep_complete`). Queries follow from C36 and C93. `C100_observed_target`: for a target that is itself observed the library reports its parents as connected, hence the hypothesis that the sets are disjoint.
* Theorems: `C100_exact`, `C100_dsep_nodes`, `C100_blanket`, `C100_query`, `C100_example`, `C100_observed_target` in `Verif/Props/Complete.lean`
* Note: For sets that are disjoint. A target that is also evidence is reported as connected with its parents, though it is independent of them (C100_observed_target).

### C101 Canonical equations lose nothing (partial)

For every structural causal model in which each endogenous variable has an exogenous parent of its own, canonical_deterministic gives equations such that, with suitable distributions of the exogenous variables, the model built from them answers every interventional and counterfactual query on the endogenous variables, and all probabilities of causation, as the given model. Quantifier: for all causal models, names and numbers of states, orders of the domains, queries with any number of worlds, elimination orders and store types.

* Model: Nothing new is modelled: `canonicalDeterministic` is that of C19 and the model is built with `SCM.ofDict`. `CanonIn` says what the function is called with; `SameAnswers` that two networks agree on `BN.cfProb` for all worlds.
* Proof: A state of an exogenous variable fixes the response of its child to the endogenous parents (`respond`). C19 gives a state of the canonical variable with the same response, so that the states are mapped (`Rich.exists_map`). Moving the probabilities along the map changes no sum over exogenous states (`sumOver_moved`), since solutions are mapped to solutions (`Reads.cfProb`). `C101_rich` is about any model whose exogenous variables select all combinations of responses, also when endogenous variables share them. The answers follow from C42, C43 and C46. With the default store an endogenous variable without endogenous parents gets no equation (`C101_default_store`), as in C19.
* Theorems: `C101_rich`, `C101_canonical_partial`, `C101_default_store`, `C101_interventional`, `C101_counterfactual`, `C101_causation`, `C101_example` in `Verif/Props/Canonical.lean`, `Verif/Props/CanonicalEx.lean`
* Note: For the list, flat numpy and tree stores. With the default store canonical_deterministic raises for an endogenous variable without endogenous parents, and every model with endogenous variables has one (C101_default_store). Each endogenous variable has an exogenous parent of its own; C101_rich has no such condition.

### C102 Canonical equations attain the greatest likelihood (partial)

For every causal graph in which each endogenous variable has an exogenous parent of its own, and every network over its endogenous part, some model with the equations of canonical_deterministic has the observational distribution and all the effects of interventions of that network. Hence, for every complete data set, some model with canonical equations has the log-likelihood that max_log_likelihood reports, so that the bound is attained. Quantifier: for all causal graphs, names and numbers of states, networks over the endogenous variables, non-empty complete data sets, topological orders, elimination orders and store types.

* Model: Nothing new is modelled. `OverEndo` says what a network over the endogenous variables of another is, `SameEffects` that observing and intervening have the same probabilities in both.
* Proof: Every family of distributions of a child given its endogenous parents is a mixture of responses (`Rich.exists_cond`): the exogenous variable draws a response to every combination of parents independently. The sums over exogenous states then factorise (`endo_joint`), also after interventions, which gives `C102_rich`. With the relative frequencies as network (`freqNet`) the log-likelihood is the sum that `max_log_likelihood` computes (C49). The logarithm is any function that turns products of positive numbers into sums. The default store is left out for the reason of C101 (`C101_default_store`).
* Theorems: `C102_rich`, `C102_canonical_partial`, `C102_likelihood_partial`, `C102_example` in `Verif/Props/Attained.lean`, `Verif/Props/AttainedEx.lean`
* Note: For the list, flat numpy and tree stores. With the default store canonical_deterministic raises for an endogenous variable without endogenous parents (C101_default_store). C102_rich has no such restriction.

### C103 Effects of variables that share no unobserved cause with their children are determined by observations (proved)

Call two endogenous variables connected when they are in the same component, that is when a chain of shared exogenous parents leads from one to the other. If none of the variables that are imposed is connected to a child of it that is not imposed, then two models with the same graph and the same states of the endogenous variables, whatever their equations, exogenous states and distributions, that give the same positive probabilities to the endogenous values, answer every causal query about this intervention, with or without evidence, in the same way. The answer is a formula of the observed probabilities: in each component the probabilities of the variables given all earlier ones are multiplied and summed over the imposed variables. When models are learnt from compatible data with GDCC, the low and the up bound are both that formula of the relative frequencies, whatever the number of models and the random start. Quantifier: for all pairs of models of a graph, interventions, targets, evidence, store types, elimination orders, data sets, numbers of learnt models and random numbers.

* Model: Nothing new is modelled. `Unconfounded` is the condition, `effectOf` the formula; `components` are the components that the library reports (C66) and, by themselves, the variables without exogenous parent.
* Proof: The probability after an intervention is a sum over exogenous states of the remaining equations, which factorises along the components (`exoSum_parts`). In the component of an imposed variable, summing the product of all equations of the component over the imposed variables removes their equations and nothing else, because none of its children in the component is left (`exoSum_sum`). The product of all equations of a component is the product of the conditional probabilities given the earlier variables (`prefix_component`). `C103_determined` follows since nothing but the endogenous distribution is used, `C103_identified` since learnt models have the frequencies as distribution (C87). Positivity is needed for all but the last variable of the order. `C103_two_models` applies the theorem to two models with other exogenous states and equations. `C103_confounded` shows the condition at work: in `U → X → Z ← U` two models with the same observations answer differently.
* Theorems: `C103_determined`, `C103_effect`, `C103_identified`, `C103_example`, `C103_two_models`, `C103_confounded` in `Verif/Props/Effect.lean`, `Verif/Props/EffectEx.lean`
* Note: 

### C104 Effects of variables that share an unobserved cause with a child are not determined by observations (proved)

The condition of C103 is exact for interventions on one variable: the answers to the causal queries with an imposed state of the endogenous variable x are determined by the graph and the positive distribution of the endogenous variables if and only if x is not connected with a child by a chain of shared exogenous variables. If it is connected, there are two causal models with this graph, accepted by the constructors, with the same endogenous variables and the same positive distribution of them, and a causal query on x to which the library answers differently. Quantifier: for all acyclic graphs, endogenous variables, store types, elimination orders and settings of cast_multinomial and check_factors.

* Model: Nothing new is modelled: `buildScm` is the constructor of factors followed by the one of the causal model. `Determined` is the property, `Unconfounded` the condition of C103. The spec objects of the proof are networks with states in `Bool × Bool`.
* Proof: If x is connected with its child z a shortest chain of exogenous variables u_0, …, u_(n-1) and endogenous ones x = w_0, …, w_n = z meets no variable twice (`chain_exists`). Each exogenous variable is a fair coin with a biased second coin, x is the coin of u_0, each w_k the parity of its two coins and z adds the second coin of u_(n-1). In the first network z adds x as well, in the second the coin of u_0 is left out of w_1. Turning the coins of u_1, …, u_(n-1) when x is one exchanges the two networks, so the endogenous variables have the same distribution (`same_marg`). After imposing x, turning all coins turns z in the first network, so z is fair given the rest (`effect_first`); in the second network it is biased (`effect_second`). All three are one lemma on changing summed variables (`sumOver_change`). That both networks are causal models that the constructors return is `C93_causal_build`; what the queries return is C42. The other direction is C103.
* Theorems: `C104_undetermined`, `C104_determined`, `C104_exact`, `C104_example` in `Verif/Props/EffectEx.lean`, `Verif/Props/Undetermined.lean`
* Note: 

### C105 Renaming the variables of a model renames the answers of its queries (partial)

For a renaming that is injective on the variables of the model, the renamed model gives to a query in the new names the answer that the model gives to the query in the old names: the answer has the renamed variables and the same value in every state of them. This holds for conditional queries of networks, for causal queries with interventions and evidence, and for counterfactual queries over several worlds. Quantifier: for all networks and causal models, injective renamings (also ones that exchange names), targets, evidence, interventions, store types and pairs of elimination orders.

* Model: Nothing new is modelled. `inNewNames` is an observation in the new names, `SameRenamed` that one factor is the other with renamed variables.
* Proof: `BN.relabel` is the renamed network (C34). Sums over variables, probabilities after interventions and counterfactual probabilities of the renamed network are those of the network (`marg_relabel`, `doMarg_relabel`, `cfProb_relabel`), the renamed causal model is a causal model (`causalOk_ren`), and the answers of both models are these numbers (C36, C42, C43). For counterfactual queries the names of the copies have to be new after the renaming, which an injective renaming does not ensure: renaming X to Z_1 makes a query fail that the model answers (`C105_collision`). Renamings that do not mention an endogenous variable are refused for causal models (C34).
* Theorems: `C105_query`, `C105_causal`, `C105_counterfactual_partial`, `C105_example`, `C105_collision` in `Verif/Props/Renamed.lean`
* Note: Proved for conditional and causal queries. For counterfactual queries under the conditions of C43, and when the names of the copies are new after the renaming; otherwise it is false (C105_collision). Causal models: the renaming mentions the endogenous variables (C34). Exact numbers.

### C106 Domains made up from numbers of states have these states, and when their true and false states are recognised (proved)

create_domain gives every variable, in the given order, as many different states as asked for, numbered from the given first number. Of a variable with two states identify_true_false finds the true and the false state exactly if the numbers start at zero, or the states are strings and the numbers start at one (the default); the true state is the one with number one. All other made-up domains are refused by identify_true_false. Without variables create_domain raises an IndexError. Quantifier: for all names, sizes (also negative), first numbers and both kinds of states.

* Model: `createDomain` with `str.lower` as an argument; states are Python values with their type, as in C47. Names are strings.
* Proof: The texts of different integers differ (`intStr_inj`); the candidates of `identify_true_false` are computed for every first number. That the lower case of a name followed by a number is its own lower case is a hypothesis, true of Python's `lower`.
* Theorems: `C106_states`, `C106_empty`, `C106_true_false`, `C106_example` in `Verif/Props/Domains.lean`
* Note: Names are strings; str.lower is a parameter of which C106_true_false uses that it keeps the lower-cased name followed by a number. In particular the numeric domains with the default first number are not recognised (C106_example).

### C107 Changing between column-major and row-major order moves every cell to its place (proved)

change_shape_order takes the value at the column-major position of a cell to the row-major position of the same cell, for every cell of the shape, so that it loses and repeats nothing; applied to the result with the dimensions reversed it gives the values back. It is refused, with a ValueError, exactly if the number of values is not the number of cells. Quantifier: for all lists of values, shapes (of any number of dimensions, also with empty ones) and cells.

* Model: `changeShapeOrder` reads the values at the column-major positions (`ravelF`) of the cells listed in row-major order. The size -1 of numpy is left out. `columnMajor` and `rowMajor` are the positions as sums, for the statement.
* Proof: The column-major position in a shape is the row-major position in the reversed shape (`ravelF_reverse`), and row-major positions number the cells (C11).
* Theorems: `C107_cells`, `C107_back`, `C107_refused`, `C107_example` in `Verif/Props/Domains.lean`
* Note: Shapes without the size -1.

### C108 The bounds on probabilities of causation cannot be improved (proved)

For a cause and an effect with two states and an unobserved common parent, the values that prob_necessity_sufficiency returns for the causal models with given probabilities of observations and of the effect after imposing either state of the cause are exactly the numbers within the bounds of Tian and Pearl; the values of prob_necessity and prob_sufficiency are any pair within their own bounds. The models are built by the constructors, and their causal queries return the given probabilities. Quantifier: for all probabilities that some model can have, all numbers within the bounds, both value types, all choices of the inference engine and all names.

* Model: No new model: `respNet` is a network with an exogenous variable of eight values (natural value of the cause, and value of the effect under either value of the cause), so the tables of cause and effect are equations.
* Proof: `RespNet.mass` distributes the given probabilities over the eight units with two free numbers, the shares of the units for which the cause is necessary and sufficient; `exists_mass` chooses them for any number within the bounds. Counterfactual probabilities are sums over the units (`cfProb_eq`), and C46 says that the library computes them. The other direction of `C108_exact` is C89.
* Theorems: `C108_attained`, `C108_attained_pair`, `C108_exact`, `C108_example`, `C108_example_pair` in `Verif/Props/Sharp.lean`
* Note: The hypotheses say that the names of the copies of the variables are new (without it prob_necessity is wrong, see C46).

### C109 The exogenous sides of the components belong to their endogenous sides (proved)

The exogenous sides of the c-components are disjoint and cover the exogenous variables with a child; the k-th exogenous side holds exactly the exogenous parents of the k-th endogenous side; get_exo_ccomponent returns it for each variable of the component; exogenous and endogenous parents (children) of a variable are its parents (children). Quantifier: for all directed graphs and all sets of endogenous variables.

* Model: `exoCComponents` (with C66), `getExoCComponent`, `exoParents`, `exoChildren`; sets are lists whose order is not used in the statements.
* Proof: Members of a component are the nodes connected to any of them (`mem_ccomponent`), and an edge from an exogenous to an endogenous variable is an edge of the graph whose components are taken.
* Theorems: `C109_disjoint`, `C109_cover`, `C109_pairs`, `C109_length`, `C109_get`, `C109_kinds`, `C109_example`, `C109_kinds_example` in `Verif/Props/Kinds.lean`
* Note: An exogenous variable without children and exogenous parents is in no component (C109_cover).

### C110 Numeric state spaces are the state spaces with positions for labels (proved)

numeric_state_space lists every tuple of positions once, in the order of the cells of a table, and its n-th element names the labels of the n-th element of state_space; numeric_assignment_space adds the names; steps_dict gives the distances in the table. Quantifier: for all domains.

* Model: `numericStateSpace`, `numericAssignmentSpace`, `stepsDict` from the model of `domainutils.py`.
* Proof: Induction on the domain; the order is that of `idxSpace` (C11).
* Theorems: `C110_positions`, `C110_labels`, `C110_steps`, `C110_example` in `Verif/Props/Numeric.lean`
* Note: 

### C111 Which domains factors accept (proved)

_check_domain accepts a dictionary exactly if its keys are strings that do not begin with an underscore and its values are non-empty lists of states of one type; it raises ValueError otherwise. It accepts all domains that factor operations form from accepted ones. Quantifier: for all dictionaries with keys and states of any types.

* Model: `checkPyDomain` on dictionaries whose keys and states are Python values with their type (as in C47), and values that need not be lists. Elsewhere names are abstract; `C111_model` shows that `Factor.checkDomain` is this check for names without leading underscore and states of one type.
* Proof: Case analysis.
* Theorems: `C111_accepted`, `C111_refused`, `C111_closed`, `C111_copies`, `C111_model`, `C111_example` in `Verif/Props/Numeric.lean`
* Note: 

### C112 Changing a derived model does not change the model it was made from (partial)

After copy, to_multinomial, intervention or rename_vars, setting factors of the new model, or changing its factors in place, leaves the old model as it was, and the other way round: a program that makes, copies, converts, intervenes, renames and changes models gives each of them the contents it would have if models shared nothing. Quantifier: for all programs, models and in-place changes.

* Model: `Model/Objects.lean`: factors are objects with an address, a model object holds addresses, and an in-place change (`write`, any function on factors; `set_value` is one) acts on the factor at an address. Programs are lists of operations; `modelRun` is the same program on values, with the functions of `Model/SCM.lean`. Graphs and lists of names are values, since no code changes them after a model is made (`copy` and `to_multinomial` share the graph, so a caller who edits `model.graph` would see the edit in both).
* Proof: Simulation (`step_same`): operations only append to the heap, so what older models show is unchanged; an in-place change is that of one model if no other entry has its address. `ofDict_entry`, `intervention_entry` and `From` say which addresses a new model holds. This also justifies that the other properties treat models as values.
* Theorems: `C112_alone_partial`, `C112_values_partial`, `C112_write_partial`, `C112_copy`, `C112_intervention`, `C112_intervened_partial`, `C112_renamed_partial`, `C112_example` in `Verif/Props/Objects.lean`
* Note: False for in-place changes of tables after copy, to_multinomial and intervention, which share them with the original (C112_copy, C112_intervention: for all programs). Proved for all programs without in-place changes, and for those in which no other model refers to the changed table; renamed models and intervened variables have tables of their own.

### C113 A model can be queried and learnt whatever stores its tables are kept in (partial)

The vtype of a factor only says how its table is kept: queries to a model give the posterior distributions, and a step of expectation maximisation the new tables, whatever the vtypes of the factors, also when they differ from one another or from the default vtype. Quantifier: for all networks, assignments of stores to tables, default stores, queries and data.

* Model: `Model/Mixed.lean`: a factor carries its vtype; operations compare the classes of the stores first, as `_generic_combine` does; elimination and a step of expectation maximisation are the same code over such factors, and the counts are made in the default store. Specification: `Relevant`, the nodes with a descendant that is asked for or observed and a link to the target that does not leave an observed node.
* Proof: One store: simulation by the model without vtypes. Different stores: an invariant of elimination gives every relevant node a remaining factor of the store of its table, which mentions a descendant on its left and so is never dropped; at the end all of them are combined. Conversely, irrelevant tables are removed first, so that they can be replaced by tables in the store of the others.
* Theorems: `C113_refused`, `C113_combined`, `C113_one_store`, `C113_answered`, `C113_answers_partial`, `C113_exact`, `C113_em_partial`, `C113_em_refused`, `C113_asked`, `C113_learnt`, `C113_example` in `Verif/Props/Mixed.lean`
* Note: False: factors of different stores cannot be combined (C113_refused), so a query is answered exactly when the tables that matter for it are kept in one store (C113_exact, both directions for all networks and elimination orders; then it is the posterior, C113_answers_partial), and a model outside the default store cannot be learnt (C113_em_refused). In one store, everything is as proved for that store (C113_one_store, C113_em_partial).

### C114 Answers to different queries of a model fit together (proved)

Answers given by one model satisfy the rules of probability among themselves: the answer for T and U summed over U is the answer for T; it is the answer for U times the answer for T when the states of U are also observed; a conditional query agrees with the query that has the conditions as evidence; query(T|U)*query(U) summed over U is query(T), and query(T|U)*query(U)/query(T) is query(U|T); the order of targets and observations does not matter. The same holds for queries with imposed states. Quantifier: for all models, stores, elimination orders, disjoint sets of targets and evidence of non-zero probability.

* Model: No new definitions of code: answers of `VEObj.query`, `VEObj.queryCond` and `causalQuery` are compared with each other through factor operations of the model. The conclusions do not mention the network; `SameTable` compares cells.
* Proof: `Exactly` says that a query function returns posteriors of a network (from C36 and C42); the rules then follow from those of `BN.post` and from `Rep.marginalize`, `Rep.mul` and `apply_rep`. For imposed states the network is the mutilated one.
* Theorems: `C114_marginal`, `C114_chain`, `C114_zero`, `C114_order`, `C114_condition`, `C114_total`, `C114_bayes`, `C114_do_marginal`, `C114_do_chain`, `C114_do_order`, `C114_asked`, `C114_example` in `Verif/Props/Coherent.lean`
* Note: Evidence of non-zero probability (C40 says what happens otherwise); the last two rules need answers without zeros, since stores differ on 0/0 (C04).

### C115 Printed forms say what they show (proved)

Two tables (equations, interval factors) have the same printed form exactly when they have the same variables on both sides, the same numbers of states in the same order, and the same first four values, with the same last value when there are more; the name of a table is never that of an equation. Two networks have the same printed form exactly when their variables have the same numbers of states, known for the same ones, and their graphs have the same nodes and parents; two causal models when moreover the same variables are endogenous. Quantifier: for all factors and models, in any stores, whose names of variables have none of the separators used in the text, and any injective text of values without those separators.

* Model: `Factor.repr`, `DetFactor.repr`, `IFactor.repr`, `DagModel.repr` and `SCM.repr` (`Factor/Print.lean`) as lists of characters, with `str` of a value as a parameter `sh`; `dag2str` is the function of C22.
* Proof: Texts are cut at the first separator (`cut`), joined lists are injective when no element has the separator (`join_inj`), and the text of a graph determines nodes and parents (`dagText_inj`). `shownCards`, `shownDomains`, `shownValues`, `shownGraph` are the independent description of what is shown.
* Theorems: `C115_name`, `C115_equation_name`, `C115_kinds`, `C115_table`, `C115_equation`, `C115_interval`, `C115_network`, `C115_causal`, `C115_show`, `C115_text`, `C115_not_shown`, `C115_network_text`, `C115_comma` in `Verif/Props/Print.lean`
* Note: C115_not_shown and C115_comma are the limits: state names and middle values are not shown, and a comma in a name is read as a separator.

### C116 Bounds from more models contain those from fewer (proved)

The bounds of an interval result depend only on which answers there are, not on their order or repetition; the bounds of more models contain those of fewer, and adding models to an object never narrows the bounds of a query or the numbers read from it; the bounds of two groups together are the lesser and the greater of the bounds of the groups; conditioning the answers and then taking bounds gives the same as conditioning the bounds. Quantifier: for all lists of models or tables with finite values over the same variables and states, in any store, all queries they answer and all joint states.

* Model: No new definitions of code: `IFactor.fromPrecise`, `IFactor.restrict` and `MultiObj.query` are compared with themselves on other lists of factors or models. The query is any function that the models answer with finite tables over the same variables (`AnswersIn`).
* Proof: Least and greatest numbers of a list depend on its members only (`TightBounds.wider`, `.same`, `.union`), and C50 says that the bounds are these numbers; `multi_query` (C82) lifts this to objects. `C116_tables` and `answersIn_of_answer` show that the hypotheses are met.
* Theorems: `C116_envelope`, `C116_same`, `C116_union`, `C116_restrict`, `C116_query`, `C116_add`, `C116_tables`, `C116_example`, `C116_learnt` in `Verif/Props/Wider.lean`
* Note: The values must be finite (C50_nan says what happens otherwise); C116_add is for an object that answers for its own models, which C51 shows may fail when lists are shared.

### C117 Counterfactual answers obey the laws of potential outcomes (proved)

Answers of different counterfactual queries of one causal model fit together. Only what is imposed in the world of a target matters, not the number of the world nor the order of the imposed states. That variables W have the states w and T the states t when d is imposed is as probable as that W have the states w when d is imposed and T the states t when d and W = w are imposed. Summing a target out of an answer gives the answer without it. With one world and no evidence the answer is the interventional one, and it is the average of the answers given each state of a variable, weighted with their probabilities. Quantifier: for all structural causal models, stores, elimination orders, evidence of non-zero probability, and all worlds and targets that are endogenous, whose imposed variables have a child not imposed in the same world, and whose copies have new names.

* Model: No new definitions of code: `counterfactualQuery` and `causalQuery` are compared with themselves on other worlds, targets and evidence.
* Proof: `BN.outcome u d` is the solution of the equations under `d` with exogenous states `u`; C43's formula becomes the mass of an event about outcomes (`cfEvent_eq`), and the laws are facts about events: composition is uniqueness of the solution (`outcome_compose`), summing out and averaging are a partition of the exogenous states (`pr_sum_value`). Helper lemmas in `Inference/Potential.lean`.
* Theorems: `C117_worlds`, `C117_composition`, `C117_marginal`, `C117_interventional`, `C117_average`, `C117_example`, `C117_example_composition` in `Verif/Props/Potential.lean`
* Note: For the queries that C43 shows to be answered (CfOk); C44 shows what happens to the others.

### C118 Operators between tables, equations, interval factors and numbers (partial)

An operator between operands of different kinds either computes with the tables they stand for (an equation stands for its zero-one table, a number for a constant table) or is refused with an exception. Quantifier: for all tables, equations, interval factors and numbers, in any store, and all of the operators *, +, -, / and **.

* Model: `Operand` is a table, an equation, an interval factor or a number; `Operand.binop` is python's dispatch of the operators over them (`Factor/Operands.lean`), with `Factor.withEqn` for the case in which the cells of an equation, which are states, take part in arithmetic (`label` says which states are numbers).
* Proof: By cases over the kinds; tables and numbers go through `FExpr.apply_rep` (C79). `Stands` is the specification: what table an operand stands for, read by its cells.
* Theorems: `C118_operators_partial`, `C118_answered`, `C118_refused`, `C118_exceptions`, `C118_combine_all`, `C118_few`, `C118_pow`, `C118_labels`, `C118_type_error`, `C118_not_product`, `C118_wrong`, `C118_example` in `Verif/Props/Operands.lean`
* Note: The code violates it for a table on the left and an equation on the right (C118_wrong); everything else is proved.

### C119 Variables may be given by name or in any container of names (partial)

Every query and graph function that takes variables treats a name as the list of that name, and a list, set or dictionary view as the variables in it: the answer is that for the variables meant, in whatever form and order they are given. Quantifier: for all names, containers, networks, structural causal models, tables of records, evidence, interventions, stores and graphs.

* Model: `Arg` is an object that can name a variable, or an unhashable container; `NameKind` says which names are strings and what `list(name)` is for the others; `asLists` is `as_lists` (`Inference/Arguments.lean`), and the queries on arguments call the query functions of the other claims.
* Proof: `Means` is the specification of what an argument stands for; each statement reduces to the one for lists (C36, C39, C42, C48, C114). That separation depends only on the sets is `dSeparated_congr`. Partial: `dcon_nodes` refuses containers (`C119_container_refused`), and names that are not strings are refused or taken apart (`C119_not_string`, `C119_tuple`).
* Theorems: `C119_list`, `C119_lists`, `C119_exact`, `C119_conditional`, `C119_same`, `C119_causal`, `C119_counterfactual`, `C119_frequency`, `C119_separated`, `C119_connected`, `C119_dcon_partial`, `C119_container_refused`, `C119_not_string`, `C119_tuple`, `C119_asked`, `C119_asked_graph`, `C119_example` in `Verif/Props/Arguments.lean`
* Note: Holds for names that are strings in all queries; dcon_nodes refuses containers and names that are not strings are refused or taken apart, with witnesses.

### C120 The stop watch measures from the last start (proved)

Reading or stopping the watch gives the milliseconds since it was last started; reading does not stop it; a watch that was never started, or has been stopped, cannot be read or stopped. There is one watch for all users. Quantifier: for all sequences of calls of start, stop, stop_print and get_time, and all readings of the clock.

* Model: `Util/Watch.lean`: a call of a class method with what the clock shows; the class attribute is the state. Calls of subclasses are left out.
* Proof: `Running` is the specification, on the list of calls alone; induction from the end of the list.
* Theorems: `C120_elapsed`, `C120_refused`, `C120_reading`, `C120_one_watch`, `C120_monotone`, `C120_example` in `Verif/Props/Watch.lean`
* Note: All sequences of calls of the class itself; exact arithmetic.

### C121 Colours are written as two hexadecimal digits for each byte (proved)

A colour with components between 0 and 1 is written as a number sign and the two hexadecimal digits of the byte of each component, so that colours have the same text exactly if their bytes are the same; the colours of a list of n are those of the colour map at n equally spaced points. Quantifier: for all components between 0 and 1, all numbers of colours and all colour maps.

* Model: `Util/Plot.lean`: exact numbers instead of floats, `int` truncates towards zero, the format `02x`, and the colour map of matplotlib as a parameter.
* Proof: `IsByte` and `twoDigits` are the specification; the 256 texts of a byte are evaluated by the kernel.
* Theorems: `C121_text`, `C121_same`, `C121_every`, `C121_refused`, `C121_outside`, `C121_linear`, `C121_answered`, `C121_example` in `Verif/Props/Colours.lean`
* Note: Exact arithmetic. Components beyond 1 or negative give texts that are no colours (C121_outside).

### C122 A drawing shows every variable and every edge once (proved)

The drawing of a causal model has each variable once, in the colour of its kind and with its name in a different colour, and each edge once, dashed exactly if it starts at an exogenous variable; if some variable has no position the drawing is refused. Quantifier: for all structural causal models and positions.

* Model: `Model/Draw.lean`: `draw` as the list of the calls of networkx with their arguments, each of which fails if a position is missing.
* Proof: What is drawn is read off the calls (`drawnNodes`, `drawnTexts`, `drawnEdges`) and compared with the nodes and edges of the graph as permutations.
* Theorems: `C122_drawn`, `C122_readable`, `C122_refused`, `C122_stranger`, `C122_default`, `C122_example` in `Verif/Props/Drawing.lean`
* Note: For graphs of networkx and endogenous lists of distinct nodes; others are refused (C122_stranger).

## 4. Trusted base

* The Lean 4 kernel and the Mathlib version installed here. No axiom of our own, no `sorry`, no `native_decide`.
* Axioms: only `propext`, `Classical.choice` and `Quot.sound`; which theorem uses which is listed below.
* The reading of python, numpy, networkx 2.6.3 and pandas semantics in the modelled functions.
* The correspondence between each definition and the lines it cites: by reading.

Not expressible, or left out:

* Floating point rounding and running time.
* The distribution of numpy's random generators: the theorems quantify over all outcomes instead.
* scipy's `minimize`: its objective is modelled (C61), the optimiser is a parameter.
* pgmpy and bnlearn themselves: only what is handed over to them and what is taken back.
* Printing (`__repr__`, `name`), plots, timers, seeds (`util/plotutils.py`, `watch.py`, `randomUtil.py`).

### Axioms per theorem

Collected with `Lean.collectAxioms` for every theorem named in the manifest.

* no axioms: C106_empty, C110_example, C111_copies
* `propext`: C107_example, C119_asked_graph, C119_list, C19_violation_no_parents, C19_violation_two_parents, C22_empty, C26_unknown_name, C51_caller_list, C51_shared, C52_zero, C53_exact_example, C53_parallel, C53_refused, C57_apart, C57_double, C57_empty, C57_exact_example, C66_example, C66_omitted, C69_tree_shares, C69_tree_shares_back, C74_type_error, C86_caller_example, C95_scm_text_named
* `Quot.sound`, `propext`: C02_by_place_example, C06_numpy1d_refuses, C08_one_list_example, C08_violation_axes, C08_violation_two_lists, C100_observed_target, C109_length, C111_example, C111_refused, C112_alone_partial, C112_example, C112_values_partial, C113_combined, C113_refused, C118_combine_all, C118_exceptions, C118_few, C118_pow, C118_refused, C119_connected, C119_counterfactual, C119_lists, C119_tuple, C120_elapsed, C120_example, C120_one_watch, C120_reading, C120_refused, C122_readable, C122_refused, C122_stranger, C17_exact_example, C17_violation, C22_single_node, C34_unmapped_fails, C41_history, C42_unknown, C47_the_states, C50_refused, C50_scalars, C51_current_partial, C51_emcc, C53_exact, C53_exact_distinct, C53_parallel_partial, C53_sequential, C54_first_run, C54_function, C54_loop, C54_second_run, C54_unlimited, C55_first_step_partial, C62_list, C62_parts, C68_copy_constant, C68_copy_node, C68_no_lookup, C69_arrays, C69_arrays_write, C69_shallow, C69_tree_same_node, C75_unset, C79_number_on_the_left, C79_other_number, C79_refused, C80_equation_none, C82_current, C82_interval, C82_stale, C82_unset, C83_default, C86_left_first, C86_names, C86_repeated, C94_unset, C95_scm_text_fails, C96_records_fail
* `Classical.choice`, `Quot.sound`, `propext`: C01_product_pointwise, C02_exact, C02_exact_example, C02_label_pairing_partial, C02_numpy_by_place, C02_numpy_violation, C03_difference_pointwise, C03_scalar_operand, C03_sum_pointwise, C04_division_pointwise, C04_zero_over_zero, C05_marginalize_absent, C05_marginalize_sums, C06_maxmarginalize, C07_restrict_bad_state, C07_restrict_conditions, C08_apart, C08_apart_example, C08_in_order, C08_list_restriction_partial, C08_no_lists, C08_one_list, C08_out_of_order, C08_two_lists, C08_violation_order, C09_store_independence, C100_blanket, C100_dsep_nodes, C100_exact, C100_example, C100_query, C101_canonical_partial, C101_causation, C101_counterfactual, C101_default_store, C101_example, C101_interventional, C101_rich, C102_canonical_partial, C102_example, C102_likelihood_partial, C102_rich, C103_confounded, C103_determined, C103_effect, C103_example, C103_identified, C103_two_models, C104_determined, C104_exact, C104_example, C104_undetermined, C105_causal, C105_collision, C105_counterfactual_partial, C105_example, C105_query, C106_example, C106_states, C106_true_false, C107_back, C107_cells, C107_refused, C108_attained, C108_attained_pair, C108_exact, C108_example, C108_example_pair, C109_cover, C109_disjoint, C109_example, C109_get, C109_kinds, C109_kinds_example, C109_pairs, C10_read_after_writes, C110_labels, C110_positions, C110_steps, C111_accepted, C111_closed, C111_model, C112_copy, C112_intervened_partial, C112_intervention, C112_renamed_partial, C112_write_partial, C113_answered, C113_answers_partial, C113_asked, C113_em_partial, C113_em_refused, C113_exact, C113_example, C113_learnt, C113_one_store, C114_asked, C114_bayes, C114_chain, C114_condition, C114_do_chain, C114_do_marginal, C114_do_order, C114_example, C114_marginal, C114_order, C114_total, C114_zero, C115_causal, C115_comma, C115_equation, C115_equation_name, C115_interval, C115_kinds, C115_name, C115_network, C115_network_text, C115_not_shown, C115_show, C115_table, C115_text, C116_add, C116_envelope, C116_example, C116_learnt, C116_query, C116_restrict, C116_same, C116_tables, C116_union, C117_average, C117_composition, C117_example, C117_example_composition, C117_interventional, C117_marginal, C117_worlds, C118_answered, C118_example, C118_labels, C118_not_product, C118_operators_partial, C118_type_error, C118_wrong, C119_asked, C119_causal, C119_conditional, C119_container_refused, C119_dcon_partial, C119_exact, C119_example, C119_frequency, C119_not_string, C119_same, C119_separated, C11_index_of_state, C11_partial_observation, C120_monotone, C121_answered, C121_every, C121_example, C121_linear, C121_outside, C121_refused, C121_same, C121_text, C122_default, C122_drawn, C122_example, C12_values_roundtrip, C12_wrong_length, C13_values_array, C14_rename, C15_left_right_bookkeeping, C15_summed_out_is_one, C16_column_sums, C16_to_multinomial, C17_exact, C17_false, C17_roundtrip_partial, C18_constant, C18_constant_bad_state, C18_constant_deterministic, C19_canonical_partial, C19_numpy_refuses, C20_normalize_array, C20_random, C20_random_nonzero, C20_uniform, C20_zero_column, C21_barren_nodes, C22_exact, C22_isolated_lost, C22_roundtrip_partial, C23_markov_blanket, C23_markov_blanket_util, C24_dsep_independence, C24_dsep_posterior, C25_elimination_order, C26_accepted, C26_constructed, C26_constructed_dict, C26_histories, C26_refused_partial, C27_built, C27_child_first, C27_exact, C27_exact_example, C27_orders, C27_parent_first, C27_state_order, C27_topological_partial, C28_acyclic, C29_ancestral, C29_example, C29_prob, C29_prob_total, C29_total, C30_example, C30_no_samples, C30_sampling, C31_example, C31_intervention, C31_other_factors, C31_unknown_ignored, C32_commute, C32_compose, C32_idempotent, C33_exact, C33_exogenous_with_parents, C33_explicit_roles_lost, C33_roles_lost, C33_root_not_cast, C33_to_bnet_partial, C33_to_multinomial_partial, C34_endogenous_must_be_mapped, C34_rename_bnet, C34_rename_causal, C35_fused_joint, C35_fusion, C36_exact_posterior, C37_admissible, C37_heuristic_irrelevant, C38_pruning, C39_conditional_any_store, C39_conditional_partial, C39_exact, C39_exact_example, C39_pruned, C39_sums_to_one, C39_zero_evidence, C40_impossible_evidence, C41_exact, C41_exact_cond, C41_exact_example, C41_recorded, C41_refused_partial, C41_repeated_conditional, C41_stale_answer, C42_do_wins, C42_example, C42_interventional, C43_counterfactual_partial, C43_example, C43_example_value, C43_name_collision, C43_one_world_partial, C44_answered_partial, C44_childless, C44_exogenous_do, C44_exogenous_target, C44_intervened_target, C45_consistency, C45_example_value, C46_childless, C46_example, C46_identity_partial, C46_necessity_partial, C46_necessity_sufficiency_partial, C46_range_partial, C46_sufficiency_partial, C47_case, C47_exact, C47_exact_example, C47_exact_list, C47_examples, C47_order_partial, C47_refused, C48_conditional, C48_frequency, C48_missing, C48_no_records, C49_any_network, C49_bound, C49_deterministic, C49_empirical, C49_impossible, C49_max_partial, C49_missing, C49_missing_value, C49_model, C49_no_exogenous_parent, C49_no_records, C50_envelope, C50_example, C50_nan, C50_pair, C50_restrict, C52_final, C52_incremental, C55_no_learning, C55_second_run, C55_stops_early, C56_example, C56_history, C56_run, C56_unbounded, C57_answered, C57_at_least, C57_exact, C57_weights_partial, C58_end_partial, C58_example, C58_mixed, C58_run_example, C58_run_partial, C58_step_partial, C59_broadcast, C59_counts, C59_exact, C59_exact_example, C59_observed_parent, C59_other_configurations, C59_own_configuration_partial, C60_exactly_once, C60_first, C60_patterns, C61_built, C61_childless, C61_decomposes, C61_deterministic, C61_names, C61_not_counted, C61_objective_partial, C61_order, C61_total, C61_two_parents, C61_updated, C62_exact, C62_exact_example, C62_single_partial, C62_substring, C63_exponent, C63_indices, C63_isolated, C63_joint, C63_names, C63_names_small, C63_round_trip_partial, C64_constant, C64_exponent, C64_isolated, C64_labels, C64_round_trip_partial, C65_exact, C65_first, C65_first_example, C65_order, C65_raises, C65_table_partial, C66_cover, C66_disjoint, C66_get, C66_minimal, C66_together, C67_acyclic_partial, C67_built, C67_contains, C67_cyclic, C67_exact, C67_exact_example, C67_markovian_partial, C68_default, C68_negative, C68_negative_end, C68_store, C68_tree, C69_trees_partial, C70_powerset, C71_completed, C71_incomplete_observation, C72_hidden_blanket, C72_nothing_hidden, C73_minimal_observations, C74_keywords_partial, C75_export_partial, C75_import, C75_isolated, C75_net_partial, C75_round_trip_partial, C76_last_split, C76_not_best, C77_exogenous_child, C77_factorisation, C77_impossible, C77_log_likelihood, C78_component, C79_example, C79_expressions_partial, C79_same_cells, C79_take_out, C80_endogenous_refused, C80_equation, C80_example, C80_example_values, C80_fill, C80_fill_new, C80_network, C80_no_states, C80_other_states, C80_randomize, C81_evidence, C81_example, C81_example_values, C81_generate, C81_impossible, C81_likelihood_partial, C81_no_models, C81_not_cast, C81_query, C81_single, C82_counterfactual_partial, C82_emcc_both_partial, C82_emcc_necessity_partial, C82_emcc_sufficiency_partial, C82_example, C82_example_list, C82_example_values, C82_necessity_partial, C82_necessity_sufficiency_partial, C82_stale_example, C82_sufficiency_partial, C83_compare, C83_example_refused, C83_example_values, C83_improves, C83_maximum, C83_no_run, C83_refuses, C83_run, C84_agree, C84_example, C84_example, C84_example_values, C84_generate, C84_necessity_partial, C84_necessity_sufficiency_partial, C84_no_models, C84_not_cast, C84_query, C84_single, C84_sufficiency_partial, C85_adjustment, C85_adjustment_example, C85_confounded, C85_deletion, C85_deletion_example, C85_exchange, C85_exchange_example, C85_observation, C85_observation_example, C86_caller, C86_count, C86_exact, C86_exact_example, C86_example, C86_names_refused, C86_refused, C86_refused_example, C86_rows_partial, C87_effect, C87_example, C87_frequencies, C87_identified, C87_optimiser, C88_bif_order, C88_class, C88_history, C88_intervened_refused, C88_net_bif_partial, C88_net_uai_partial, C88_parts, C88_refused, C88_same_absolute, C88_same_example, C88_same_file, C88_save, C88_scm_bif_partial, C88_scm_bif_refused, C88_scm_uai_partial, C89_both_partial, C89_example, C89_example_values, C89_frechet_partial, C89_gdcc_adjusted_partial, C89_gdcc_both_partial, C89_gdcc_example, C89_gdcc_intervention, C89_intervention, C89_monotone_example, C89_monotone_partial, C89_necessity_partial, C89_sufficiency_partial, C90_causation_iff, C90_example, C90_iff, C90_refused, C91_effect, C91_example, C91_front_door, C91_front_door_example, C91_identified, C92_box, C92_cell_in, C92_cells, C92_distribution, C92_example, C92_record, C93_build, C93_causal, C93_causal_build, C93_example, C93_exists, C93_unique, C94_bnet_to_causal, C94_causal_to_bnet, C94_example, C94_holds, C94_model_round_trip, C94_net_round_trip, C94_unset_example, C95_example, C95_holds, C95_network, C96_columns, C96_det_example, C96_distribution, C96_example, C96_sampled, C97_complete_fails, C97_counts_example, C97_counts_iff, C97_default, C97_example, C97_holds, C97_needed, C97_run_fails, C97_step_fails, C98_answers, C98_consistent, C98_example, C98_marginal, C98_no_answer, C98_posterior, C98_unbiased, C99_converges, C99_example, C99_frozen, C99_mixed, C99_run_partial, C99_table_partial, C99_two, C99_zero, front_door, units_front

### Which code is modelled

Functions whose lines are cited by a definition, with the modules that cite them; then the functions no definition cites. Many of the latter are abstract methods, properties that return a field, operators that only call a modelled method, and printing.

* `bcause/conversion/pgmpy.py`: 4 of 4 functions (Verif.Conv.Pgmpy, Verif.IO.Files, Verif.Props.Files)
* `bcause/factors/deterministic.py`: 15 of 20 functions (Verif.Factor.Canonical, Verif.Factor.Deterministic, Verif.Factor.Frame, Verif.Factor.Operands, Verif.Factor.Print, Verif.IO.UaiScm, Verif.Inference.VE, Verif.Learn.Gradient, Verif.Model.SCM, Verif.Model.Sampling)
  * not cited: `DeterministicFactor.__init__.builder`, `DeterministicFactor.domain`, `DeterministicFactor.restrict`, `DeterministicFactor.marginalize`, `DeterministicFactor.maxmarginalize`
* `bcause/factors/factor.py`: 16 of 28 functions (Verif.Factor.Basic, Verif.Factor.Deterministic, Verif.Factor.Frame, Verif.Factor.Interval, Verif.Factor.Operands, Verif.Factor.Operators, Verif.IO.Uai, Verif.IO.UaiScm, Verif.Learn.Gradient, Verif.Model.Mixed, Verif.Model.Objects, Verif.Model.SCM, Verif.Util.Numeric)
  * not cited: `Factor.store`, `Factor.variables`, `Factor.domain`, `Factor.sample`, `Factor.sample_conditional`, `Factor.restrict`, `Factor.multiply`, `Factor.addition`, `Factor.subtract`, `Factor.divide`, `Factor.marginalize`, `Factor.maxmarginalize`
* `bcause/factors/imprecise.py`: 24 of 35 functions (Verif.Factor.Interval, Verif.Factor.Operands, Verif.Factor.Print)
  * not cited: `IntervalProbFactor.store_low`, `IntervalProbFactor.store_up`, `IntervalProbFactor.left_vars`, `IntervalProbFactor._prepare_operand`, `IntervalProbFactor.marginalize`, `IntervalProbFactor.maxmarginalize`, `IntervalProbFactor.prob`, `IntervalProbFactor.log_prob`, `IntervalProbFactor.sample`, `IntervalProbFactor.sample_conditional`, `IntervalProbFactor._sample`
* `bcause/factors/mulitnomial.py`: 32 of 33 functions (Verif.Factor.Basic, Verif.Factor.Canonical, Verif.Factor.Operands, Verif.Factor.Operators, Verif.Factor.Print, Verif.IO.Uai, Verif.Learn.EM, Verif.Model.Mixed, Verif.Model.QNet, Verif.Model.Random, Verif.Model.SCM, Verif.Model.Sampling, Verif.Props.Factors2, Verif.Props.Random, Verif.Store.Class, Verif.Store.Heap, Verif.Util.Normalize)
  * not cited: `canonical_multinomial`
* `bcause/factors/values/btreeops.py`: 3 of 10 functions (Verif.Store.BTree)
  * not cited: `BTreeStoreOperations.maxmarginalize`, `BTreeStoreOperations._restrict_btreenode`, `BTreeStoreOperations._marginalize_btreenode`, `BTreeStoreOperations.multiply`, `BTreeStoreOperations.addition`, `BTreeStoreOperations.subtract`, `BTreeStoreOperations.divide`
* `bcause/factors/values/btreestore.py`: 11 of 22 functions (Verif.Props.BTree, Verif.Store.BTree)
  * not cited: `BTreeNode.variable`, `BTreeNode.var_domain`, `BTreeNode.left_states`, `BTreeNode.right_states`, `BTreeNode.left_child`, `BTreeNode.right_child`, `BTreeNode.is_on_left`, `BTreeNode.is_on_right`, `BTreeNodeConsecutive.summary`, `BTreeStore._check_consistency`, `BTreeStore._copy_data`
* `bcause/factors/values/listops.py`: 4 of 8 functions (Verif.Model.Mixed, Verif.Store.Flat, Verif.Store.Heap)
  * not cited: `ListStoreOperations.multiply`, `ListStoreOperations.addition`, `ListStoreOperations.subtract`, `ListStoreOperations.divide`
* `bcause/factors/values/liststore.py`: 4 of 6 functions (Verif.Factor.Deterministic, Verif.Store.Flat, Verif.Store.Heap)
  * not cited: `ListStore.__init__.builder`, `ListStore._copy_data`
* `bcause/factors/values/numpyops.py`: 7 of 10 functions (Verif.DomainUtils, Verif.Factor.Basic, Verif.Factor.Operands, Verif.Model.Mixed, Verif.NdArray, Verif.Store.Heap, Verif.Store.Numpy)
  * not cited: `NumpyStoreOperations.multiply`, `NumpyStoreOperations.addition`, `NumpyStoreOperations.subtract`
* `bcause/factors/values/numpystore.py`: 11 of 13 functions (Verif.DomainUtils, Verif.Factor.Deterministic, Verif.Props.Sharing, Verif.Store.Flat, Verif.Store.Heap, Verif.Store.Numpy)
  * not cited: `NumpyStore.__init__.builder`, `NumpyStore._copy_data`
* `bcause/factors/values/operations.py`: 3 of 15 functions (Verif.Model.Mixed, Verif.Store.Flat)
  * not cited: `OperationSet.marginalize`, `OperationSet.maxmarginalize`, `OperationSet.multiply`, `OperationSet.addition`, `OperationSet.subtract`, `OperationSet.divide`, `OperationSet.restrict`, `GenericOperations.multiply`, `GenericOperations.addition`, `GenericOperations.subtract`, `GenericOperations.divide`, `GenericOperations.restrict`
* `bcause/factors/values/store.py`: 18 of 36 functions (Verif.DomainUtils, Verif.Factor.Print, Verif.Learn.Gradient, Verif.Model.Mixed, Verif.Store.BTree, Verif.Store.Class, Verif.Store.Flat, Verif.Store.Heap, Verif.Store.Numpy, Verif.Store.Tree)
  * not cited: `DiscreteStore.variables`, `DiscreteStore.domain`, `DiscreteStore.data`, `DiscreteStore.cardinality_dict`, `DiscreteStore._check_consistency`, `DiscreteStore._copy_data`, `DiscreteStore.set_value`, `DiscreteStore.__repr__`, `DiscreteStore.get_value`, `DiscreteStore.set_value`, `DiscreteStore.set_operationSet`, `DiscreteStore.set_restrict`, `DiscreteStore.set_marginalize`, `DiscreteStore.set_maxmarginalize`, `DiscreteStore.set_multiply`, `DiscreteStore.set_addition`, `DiscreteStore.set_subtract`, `DiscreteStore.set_divide`
* `bcause/factors/values/treedictops.py`: 7 of 11 functions (Verif.Model.Mixed, Verif.Store.Heap, Verif.Store.Tree)
  * not cited: `TreeDictStoreOperations.multiply`, `TreeDictStoreOperations.addition`, `TreeDictStoreOperations.subtract`, `TreeDictStoreOperations.divide`
* `bcause/factors/values/treedictstore.py`: 6 of 7 functions (Verif.Store.Heap, Verif.Store.Tree)
  * not cited: `TreeDictStore._check_consistency`
* `bcause/inference/causal/causal.py`: 8 of 12 functions (Verif.Inference.Arguments, Verif.Inference.Causal, Verif.Inference.MultiCausal, Verif.Py.Names)
  * not cited: `CausalInference.__init__`, `CausalInference.counterfactual`, `CausalInference.run`, `CausalInference._process_output`
* `bcause/inference/causal/elimination.py`: 1 of 1 functions (Verif.Inference.Causal)
* `bcause/inference/causal/multi.py`: 12 of 15 functions (Verif.Factor.Interval, Verif.Inference.MultiCausal, Verif.Learn.EMScm, Verif.Learn.Gdcc, Verif.Learn.Multi)
  * not cited: `CausalMultiInference.models`, `CausalObservationalInference.data`, `GDCC.__init__`
* `bcause/inference/inference.py`: 0 of 6 functions
  * not cited: `Inference.model`, `Inference.inference_model`, `Inference._preprocess`, `Inference.compile`, `Inference.run`, `Inference.query`
* `bcause/inference/ordering.py`: 2 of 5 functions (Verif.Graph.Ordering)
  * not cited: `min_fill_heuristic`, `min_size_heuristic`, `min_weight_heuristic`
* `bcause/inference/probabilistic/datainference.py`: 4 of 4 functions (Verif.Inference.Arguments, Verif.Learn.Data, Verif.Props.Consistent)
* `bcause/inference/probabilistic/elimination.py`: 1 of 3 functions (Verif.Inference.Elim, Verif.Inference.VE, Verif.Model.Mixed)
  * not cited: `VariableElimination.__init__`, `VariableElimination._preprocess`
* `bcause/inference/probabilistic/probabilistic.py`: 4 of 4 functions (Verif.Inference.Arguments, Verif.Inference.VE, Verif.Learn.Data, Verif.Model.Mixed)
* `bcause/learning/aggregator/aggregator.py`: 9 of 14 functions (Verif.Learn.EMScm, Verif.Learn.Gdcc, Verif.Learn.Multi)
  * not cited: `thread`, `ModelAggregator.__init__`, `ModelAggregator.learn_objects`, `ModelAggregator.models`, `SimpleModelAggregator.merge`
* `bcause/learning/parameter/expectation_maximization.py`: 10 of 12 functions (Verif.Learn.Data, Verif.Learn.EM, Verif.Learn.EMRefused, Verif.Learn.EMScm, Verif.Model.Mixed)
  * not cited: `AbastractExpectationMaximization._expectation`, `AbastractExpectationMaximization._maximization`
* `bcause/learning/parameter/gradient.py`: 12 of 21 functions (Verif.Learn.Gdcc, Verif.Learn.Gradient)
  * not cited: `GradientLikelihood._stop_learning`, `GradientLikelihood.constraint`, `GradientLikelihood.fitPMF`, `GradientLikelihood.fitPMF.callback`, `tick`, `show_dag`, `define_model0`, `define_model1`, `define_model2`
* `bcause/learning/parameter/parameter.py`: 5 of 13 functions (Verif.Learn.EM, Verif.Learn.EMScm, Verif.Learn.Gdcc, Verif.Learn.Iterative, Verif.Model.Mixed)
  * not cited: `ParameterLearning.prior_model`, `ParameterLearning.model`, `ParameterLearning.trainable_vars`, `IterativeParameterLearning.model`, `IterativeParameterLearning._calculate_updated_factors`, `IterativeParameterLearning._process_data`, `IterativeParameterLearning.initialize`, `IterativeParameterLearning._stop_learning`
* `bcause/models/bnet.py`: 4 of 4 functions (Verif.Factor.Print, Verif.Model.Basic, Verif.Model.Convert, Verif.Model.Random, Verif.Model.SCM, Verif.Model.Submodel, Verif.Props.Files, Verif.Props.Submodel)
* `bcause/models/cmodel.py`: 36 of 38 functions (Verif.Factor.Print, Verif.Learn.EMScm, Verif.Learn.Gdcc, Verif.Learn.Gradient, Verif.Model.Components, Verif.Model.Convert, Verif.Model.Draw, Verif.Model.Kinds, Verif.Model.Objects, Verif.Model.QNet, Verif.Model.Random, Verif.Model.SCM, Verif.Model.SampleCols, Verif.Model.Submodel, Verif.Props.Files, Verif.Props.Undetermined)
  * not cited: `DiscreteCausalDAGModel.endogenous`, `DiscreteCausalDAGModel.is_endogenous`
* `bcause/models/info.py`: 5 of 5 functions (Verif.Model.Components, Verif.Model.Kinds, Verif.Model.QNet)
* `bcause/models/pgmodel.py`: 19 of 26 functions (Verif.IO.Files, Verif.Learn.EM, Verif.Learn.Gdcc, Verif.Learn.Gradient, Verif.Model.Basic, Verif.Model.Convert, Verif.Model.Objects, Verif.Model.QNet, Verif.Model.SCM, Verif.Model.SampleCols, Verif.Model.Sampling, Verif.Model.Submodel, Verif.Props.Consistent, Verif.Props.Files, Verif.Props.Networks, Verif.Props.Submodel)
  * not cited: `PGModel._initialize`, `PGModel.graph`, `PGModel.variables`, `PGModel.factors`, `PGModel.factor_list`, `DiscreteDAGModel.builder`, `DiscreteDAGModel.varsizes`
* `bcause/models/sampling.py`: 1 of 1 functions (Verif.Model.Sampling)
* `bcause/models/transform/combination.py`: 1 of 1 functions (Verif.Model.SCM)
* `bcause/models/transform/conversion.py`: 1 of 2 functions (Verif.Model.Convert)
  * not cited: `bnet_to_causal`
* `bcause/models/transform/simplification.py`: 1 of 1 functions (Verif.Inference.VE, Verif.Model.Mixed)
* `bcause/readwrite/bnread.py`: 5 of 5 functions (Verif.IO.Files, Verif.IO.Uai, Verif.Props.Files, Verif.Props.Uai)
* `bcause/readwrite/bnwrite.py`: 4 of 4 functions (Verif.IO.Files, Verif.IO.Uai, Verif.IO.UaiScm, Verif.Props.Files, Verif.Props.Uai)
* `bcause/readwrite/scmread.py`: 4 of 5 functions (Verif.IO.Files, Verif.IO.UaiScm, Verif.Props.Files, Verif.Props.UaiScm)
  * not cited: `from_uai`
* `bcause/readwrite/scmwrite.py`: 3 of 3 functions (Verif.IO.Files, Verif.IO.UaiScm, Verif.Props.Files, Verif.Props.UaiScm)
* `bcause/util/arrayutils.py`: 6 of 7 functions (Verif.Inference.Arguments, Verif.Model.Random, Verif.Util.Domains, Verif.Util.Misc, Verif.Util.Normalize)
  * not cited: `len_iterable`
* `bcause/util/assertions.py`: 1 of 2 functions (Verif.IO.Files)
  * not cited: `assert_dag_with_nodes`
* `bcause/util/datadeps.py`: 3 of 6 functions (Verif.Learn.Data)
  * not cited: `DataDepAnalysis.__init__`, `DataDepAnalysis.expectation_relevant_vars`, `DataDepAnalysis.posterior_relevant_vars`
* `bcause/util/datautils.py`: 2 of 2 functions (Verif.Learn.Data)
* `bcause/util/domainutils.py`: 15 of 16 functions (Verif.DomainUtils, Verif.Factor.Canonical, Verif.IO.Uai, Verif.Model.Random, Verif.Util.Domains, Verif.Util.Misc, Verif.Util.Numeric)
  * not cited: `index_list`
* `bcause/util/graphutils.py`: 14 of 14 functions (Verif.Graph.Basic, Verif.IO.Uai, Verif.Inference.Arguments, Verif.Model.Random, Verif.Util.Text)
* `bcause/util/plotutils.py`: 2 of 4 functions (Verif.Util.Plot)
  * not cited: `get_xyz`, `plot_3d`
* `bcause/util/randomUtil.py`: 0 of 1 functions
  * not cited: `seed`
* `bcause/util/treesutil.py`: 2 of 2 functions (Verif.Factor.Deterministic, Verif.Store.Heap, Verif.Store.Tree)
* `bcause/util/watch.py`: 4 of 4 functions (Verif.Util.Watch)
