# Design: a Lean 4 model of bcause

Code under study: `/repo/bcause` (python), read as text. Nothing of it is run.
The model lives in `lean/Verif/`; property theorems are in `lean/Verif/Props/`.
This file is written by `tools/design.py` from the texts in `tools/`, `properties.jsonl` and `MANIFEST.json`.

## 1. Architecture

| Layer | Lean modules | Python modelled |
|---|---|---|
| Python data | `Py.Basic` (exceptions as values, insertion-ordered dicts, `itertools.product`), `Py.Names` (strings, suffixes) | language / stdlib |
| Numbers | `Py.Fl` (`fin x`, `nan`, `inf`) | float division by zero, `np.nan_to_num` |
| Domains | `DomainUtils` | `util/domainutils.py` |
| Arrays | `NdArray`, `Util.Normalize` | the numpy calls used: `sum(axis)`, `max(axis)`, `repeat`, `reshape`, `moveaxis`, broadcasting, basic and advanced indexing |
| Stores | `Store.Numpy`, `Store.NumpyList`, `Store.Flat` (list, numpy1d), `Store.Tree`, `Store.BTree`, `Store.Heap` (sharing) | `factors/values/*` |
| Store interface | `Store.Class` | what `MultinomialFactor` relies on, with laws proved for the four stores a factor can have |
| Factors | `Factor.*` | `factors/factor.py`, `mulitnomial.py`, `deterministic.py`, `imprecise.py` |
| Graphs | `Graph.*`, `Model.Components` | networkx calls used, `util/graphutils.py`, `inference/ordering.py`, `models/info.py` |
| Models | `Model.*` | `models/*.py`, `models/transform/*.py` |
| Inference | `Inference.*` | `inference/probabilistic/*`, `inference/causal/*` |
| Learning | `Learn.*` | `learning/*`, `util/data*.py` |
| Files and conversion | `IO.*`, `Conv.Pgmpy` | `readwrite/*`, `conversion/pgmpy.py` |
| Probability | `Net.*`, `Sem` | no code: sums over assignments, d-separation, twin networks, Gibbs' inequality, Tian's factorisation |
| Specification | `Spec.*` | no code: independent definitions used in theorem statements |

Conventions:

* Exceptions are values (`Except PyErr`). Dicts are association lists in insertion order.
* Random choices and hash-dependent orders of sets are explicit arguments over which the theorems quantify.
* Loops whose termination is not structural take fuel, and the fuel is proved sufficient.
* Objects that are changed in place are values that are passed on; where aliasing matters (C51, C69) there is a heap.
* A specification is a small definition that does not mention the model: `Spec.BN` (a network is nodes, parents, states and
  tables; its joint is a product; a marginal is a sum), `Spec.Causal` (truncated factorisation, potential outcomes),
  `Spec.Graph` (closures), `Spec.Learning` (likelihoods). `Represents`, `SCM.Rep` and `IsTable` link objects to networks.
* Numbers: python floats are modelled by exact elements of an ordered field, extended with `nan` and `inf` where the code
  can divide by zero. Rounding is not modelled.

When the code does not have a property, the theorem with the suffix `_partial` states what it does have, and a concrete
witness refutes the rest.

## 2. What the code gets wrong

Each of these is a theorem about the model, in most cases an evaluated witness.

| Where | What happens | Theorem |
|---|---|---|
| `NumpyStore` | values of shared variables with differently ordered states are paired by position | `C02_numpy_violation` |
| `restrict` with lists | order of states, two lists and moved axes give wrong tables | `C08_violation_order`, `C08_violation_two_lists`, `C08_violation_axes` |
| `to_deterministic` | stores the index of the state instead of the state | `C17_violation` |
| `canonical_deterministic` | `ValueError` with the default store unless there is one parent | `C19_violation_two_parents`, `C19_violation_no_parents` |
| `str2dag` | isolated nodes are lost; also in files and conversions | `C22_isolated_lost`, `C63_isolated`, `C64_isolated`, `C75_isolated` |
| `set_factor` | children before parents: two tables with different states are accepted | `C27_child_first` |
| `to_multinomial`, `to_bnet` | the classification of variables is lost, roots are not cast | `C33_roles_lost`, `C33_root_not_cast`; an intervened model of equations cannot be saved in a `.bif` file: `C88_intervened_refused` |
| conditional queries | impossible evidence in a pruned part is not noticed | `C39_zero_evidence` |
| `VariableElimination` | a refused query leaves an object that answers an older one | `C41_stale_answer` |
| counterfactual queries | wrong answer when a name is the name of a copy; childless or exogenous interventions fail | `C43_name_collision`, `C44_childless`, `C44_exogenous_do` |
| `MultinomialFactor` operators | a number on the left of an operator raises `AttributeError` | `C79_number_on_the_left` |
| `CausalMultiInference` | objects that share a list answer for the wrong models; EMCC replaces models | `C51_shared`, `C51_emcc` |
| parallel learning | objects and models are paired wrongly | `C53_parallel` |
| EM | a second run learns nothing; counts of mixed missing values; observed parents are ignored; a record with the values of a variable and its parents makes learning fail; a variable that did not change once is not treated any more although the others change | `C55_no_learning`, `C57_double`, `C58_mixed`, `C59_observed_parent`, `C97_run_fails`, `C99_frozen` |
| gradient learner | `KeyError` for equations, same state for two exogenous parents, name containment | `C61_deterministic`, `C61_two_parents`, `C61_names` |
| `get_domains` | a name matches every name it is a part of | `C62_substring` |
| UAI files | exponents, names, labels, constants | `C63_exponent`, `C63_names`, `C64_labels`, `C64_constant` |
| pgmpy export | wrong matrix or exception for most factors with parents | `C65_raises`, `C65_order` |
| `copy`, `to_multinomial`, `intervention` | the tables are shared with the original: an in-place change of one is seen in the other | `C112_copy`, `C112_intervention` |
| factors with different `vtype` | operations raise `ValueError`, so queries fail when relevant tables differ in `vtype`; expectation maximisation counts in the default store and fails for models in another one | `C113_refused`, `C113_exact`, `C113_em_refused` |
| saving in BIF | a causal model whose equation has its own variable first comes back with another equation | `C88_bif_order` |
| `get_qgraph` | can be cyclic for a semi-Markovian model | `C67_cyclic` |
| `treedict` | derived factors share nodes with their source | `C69_tree_shares` |
| `get_value` | an incomplete observation returns the first cell, an array or a dictionary | `C71_incomplete_observation` |
| `submodel` | always raises `TypeError` | `C74_type_error` |
| `from_data_frame` | the wrong function unless the left variable is the last column; names contained in the left name raise | `C86_left_first`, `C86_names` |
| binary trees | the best split is not kept, the last one is | `C76_last_split` |
| random models | `random_deterministic` without right variables fails; `randomize_factors` of a model without factors fails; endogenous variables are refused | `C80_equation_none`, `C80_no_states`, `C80_endogenous_refused` |
| `StructuralCausalModel` of a text | the default of `endogenous` calls `predecessors` on the text: always fails without `endogenous`; variables without arcs are lost | `C95_scm_text_fails`, `C95_network` |
| sampling causal models | deterministic factors raise `TypeError`; `sampleEndogenous(as_pandas=False)` always fails | `C96_sampled`, `C96_records_fail` |
| table `*` equation | the states selected by the equation are taken as numbers and multiplied; the left variable of the equation is lost | `C118_wrong`, `C118_labels`, `C118_not_product` |
| `as_lists`, `dcon_nodes` | a variable whose name is not a string cannot be asked for by its name (`TypeError`, or a tuple is taken apart); `dcon_nodes` refuses lists of targets, which `dsep_nodes` accepts | `C119_not_string`, `C119_tuple`, `C119_container_refused` |
