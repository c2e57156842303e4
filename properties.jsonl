{"id": "C01", "title": "Product of factors is the pointwise product on the union of the scopes", "statement": "For every store type (numpy, numpy1d, list, treedict): f*g has as variables those of f followed by the new ones of g, and for every observation assigning a state to every variable of the union, (f*g).get_value(obs) == f.get_value(obs) * g.get_value(obs).", "quantifier": "all store types, all pairs of factors (any number of variables, any cardinalities, any variable order, shared variables having the same state list), all full observations", "why_tests_cant": "Scopes, orders and cardinalities are unbounded; the implementation goes through axis extension, axis permutation, flat index arithmetic or trees, each of which can be wrong for one particular layout only.", "anchors": ["bcause/factors/values/numpyops.py:NumpyStoreOperations._generic_combine", "bcause/factors/values/listops.py:ListStoreOperations._generic_combine", "bcause/factors/values/operations.py:GenericOperations._generic_combine", "bcause/factors/values/treedictops.py:TreeDictStoreOperations._combine_dict", "bcause/factors/mulitnomial.py:MultinomialFactor.multiply"]}
{"id": "C02", "title": "Combination pairs values by state label, not by state position", "statement": "When two factors share a variable but list its states in a different order (which the library accepts when building a model), f*g still multiplies values belonging to the same state label.", "quantifier": "all pairs of factors whose shared variables have the same set of states in any order", "why_tests_cant": "The state orders range over all permutations; a test fixes one order.", "anchors": ["bcause/factors/values/numpyops.py:NumpyStoreOperations._generic_combine", "bcause/factors/values/listops.py:ListStoreOperations._generic_combine", "bcause/models/pgmodel.py:PGModel.set_factor"]}
{"id": "C03", "title": "Addition, subtraction and scalar operands are pointwise", "statement": "f+g and f-g are pointwise on the union of the scopes, and combining with an int or float c combines every cell with c, leaving the scope and the left/right split unchanged.", "quantifier": "all store types, all pairs of compatible factors, all scalars, all full observations", "why_tests_cant": "Unbounded scopes and values.", "anchors": ["bcause/factors/mulitnomial.py:MultinomialFactor.addition/subtract/_prepare_operand", "bcause/factors/values/operations.py", "bcause/factors/values/listops.py", "bcause/factors/values/numpyops.py", "bcause/factors/values/treedictops.py"]}
{"id": "C04", "title": "Division is pointwise and 0/0 is 0 in the default store", "statement": "For every full observation, (f/g).get_value(obs) is the quotient of the two values when the divisor is non-zero; in the default (numpy) store 0/0 gives exactly 0, so dividing a joint by its own marginal never produces NaN.", "quantifier": "all store types, all pairs of compatible factors, all full observations", "why_tests_cant": "The zero pattern of the divisor ranges over all subsets of cells.", "anchors": ["bcause/factors/values/numpyops.py:NumpyStoreOperations.divide", "bcause/factors/mulitnomial.py:MultinomialFactor.divide"]}
{"id": "C05", "title": "Marginalisation sums exactly the removed variables", "statement": "f**vars has as variables those of f not removed (same order), and its value at any observation of them is the sum of f over all joint states of the removed variables; removing only variables that f does not have returns f itself.", "quantifier": "all store types, all factors, all subsets of its variables in any order, all full observations of the rest", "why_tests_cant": "Axis arithmetic, lock-step iterators and tree folding must be right for every position and number of removed variables.", "anchors": ["bcause/factors/values/numpyops.py:NumpyStoreOperations.marginalize", "bcause/factors/values/listops.py:ListStoreOperations.marginalize", "bcause/factors/values/operations.py:GenericOperations.marginalize", "bcause/factors/values/treedictops.py:TreeDictStoreOperations._marginalize_dict", "bcause/factors/mulitnomial.py:MultinomialFactor.marginalize"]}
{"id": "C06", "title": "Max-marginalisation takes the maximum over exactly the removed variables", "statement": "For the stores that implement it (numpy, list, treedict), f^vars at an observation of the remaining variables is the maximum of f over all joint states of the removed ones; the numpy1d store refuses with NotImplementedError.", "quantifier": "all factors, all subsets of variables, all observations of the rest", "why_tests_cant": "Same unbounded layouts as marginalisation.", "anchors": ["bcause/factors/values/numpyops.py:NumpyStoreOperations.maxmarginalize", "bcause/factors/values/listops.py:ListStoreOperations.maxmarginalize", "bcause/factors/values/treedictops.py:TreeDictStoreOperations.maxmarginalize", "bcause/factors/values/operations.py:GenericOperations.maxmarginalize"]}
{"id": "C07", "title": "Restriction conditions on the observed states and nothing else", "statement": "f.R(**obs) drops exactly the observed variables, and its value at any observation of the rest equals f's value at the combined observation; observed variables that are not in f are ignored; an observed state outside the domain raises.", "quantifier": "all store types, all factors, all scalar observations of any set of variables", "why_tests_cant": "All positions and numbers of restricted variables.", "anchors": ["bcause/factors/values/numpyops.py:NumpyStoreOperations.restrict", "bcause/factors/values/listops.py:ListStoreOperations.restrict", "bcause/factors/values/numpystore.py:Numpy1DStore.restrict", "bcause/factors/values/treedictops.py:TreeDictStoreOperations._restrict_dict", "bcause/factors/mulitnomial.py:MultinomialFactor.restrict"]}
{"id": "C08", "title": "Restriction to a set of states keeps labels and values together", "statement": "f.R(X=[s1,..,sk]) in the default store keeps X with exactly the listed states and every remaining cell keeps the value f had for the same labels, whatever the order in which the states are listed and whatever other variables are restricted in the same call.", "quantifier": "all factors, all lists of states, all combinations of list-valued and scalar restrictions", "why_tests_cant": "Needs every order of the list and every combination of advanced and basic indices.", "anchors": ["bcause/factors/values/numpyops.py:NumpyStoreOperations.restrict"]}
{"id": "C09", "title": "The store type is not observable", "statement": "Evaluating any expression built from factor tables with product, sum, difference, marginalisation and restriction gives, for every store type, the same value at every full observation of the result's variables.", "quantifier": "all finite expressions (any depth) over well-formed factors with consistent domains, all pairs of store types, all observations", "why_tests_cant": "Expressions are an infinite family; each store has its own data layout.", "anchors": ["bcause/factors/values/__init__.py:store_dict", "bcause/factors/values/numpyops.py", "bcause/factors/values/listops.py", "bcause/factors/values/operations.py", "bcause/factors/values/treedictops.py"]}
{"id": "C10", "title": "Reading back a written cell; no other cell changes", "statement": "After set_value(x, obs) with a full observation, get_value(obs) is x and get_value at every other full observation is unchanged.", "quantifier": "all store types, all well-formed stores, all sequences of writes, all full observations", "why_tests_cant": "Histories of writes and cells are unbounded.", "anchors": ["bcause/factors/values/numpystore.py:NumpyStore.set_value/get_value", "bcause/factors/values/liststore.py:ListStore.set_value", "bcause/factors/values/treedictstore.py:TreeDictStore.set_value"]}
{"id": "C11", "title": "Row-major layout: flat index and joint state determine each other", "statement": "The k-th joint state enumerated by state_space has flat index k (index_list(domain, state) == [k]); partial observations yield exactly the flat indices of the joint states that agree with them, in increasing order.", "quantifier": "all domains, all partial observations", "why_tests_cant": "Unbounded number of variables and cardinalities.", "anchors": ["bcause/util/domainutils.py:state_space/steps/index_iterator/values_to_coord/restrict_domain"]}
{"id": "C12", "title": "A factor returns the values it was built with", "statement": "A factor built from a flat list of values in row-major order (last variable fastest) returns that list as values_list for every store type, and a list whose length is not the product of the cardinalities is rejected.", "quantifier": "all store types, all domains, all value lists", "why_tests_cant": "Unbounded sizes.", "anchors": ["bcause/factors/mulitnomial.py:MultinomialFactor.__init__", "bcause/factors/values/store.py:DiscreteStore.values_list", "bcause/factors/values/treedictstore.py", "bcause/util/treesutil.py:build_default_tree"]}
{"id": "C13", "title": "values_array transposes without losing labels", "statement": "f.values_array(order) at the coordinates of any joint state (in the requested variable order) equals f.get_value at that state.", "quantifier": "all factors, all permutations of their variables, all joint states", "why_tests_cant": "All permutations.", "anchors": ["bcause/factors/factor.py:DiscreteFactor.values_array"]}
{"id": "C14", "title": "Renaming variables of a factor is a pure relabelling", "statement": "f.rename_vars(m), for m injective on the variables of f, has the renamed variables in the same order and the same left/right split, and its value at a renamed observation is f's value.", "quantifier": "all factors, all mappings injective on its variables", "why_tests_cant": "All mappings and scopes.", "anchors": ["bcause/factors/factor.py:DiscreteFactor.rename_vars"]}
{"id": "C15", "title": "Left/right bookkeeping of conditional factors", "statement": "Whatever sequence of products, marginalisations and restrictions produced a factor from conditional tables P(X|pa), its left and right variables partition its variables, a product conditions on exactly the variables that are on the left of neither operand, and a factor with no left variables left after summing out whole tables of a DAG is identically one.", "quantifier": "all conditional factors and all operation sequences on them", "why_tests_cant": "Sequences of operations are unbounded; variable elimination relies on it to discard factors.", "anchors": ["bcause/factors/factor.py:ConditionalFactor", "bcause/factors/mulitnomial.py", "bcause/inference/probabilistic/elimination.py:VariableElimination.run"]}
{"id": "C16", "title": "A structural equation becomes the degenerate table of its function", "statement": "DeterministicFactor.to_multinomial() has value 1 where the left state is the function's value and 0 elsewhere, hence every column sums to one; eval agrees with it.", "quantifier": "all deterministic factors over any domains", "why_tests_cant": "Unbounded domains.", "anchors": ["bcause/factors/deterministic.py:DeterministicFactor.to_multinomial/eval"]}
{"id": "C17", "title": "to_deterministic and to_multinomial are inverse", "statement": "For a degenerate table P(X|pa), f.to_deterministic().to_multinomial() is the same table.", "quantifier": "all degenerate conditional tables over any state names", "why_tests_cant": "State names are arbitrary; tests use 0..k-1.", "anchors": ["bcause/factors/mulitnomial.py:MultinomialFactor.to_deterministic", "bcause/factors/deterministic.py:DeterministicFactor.to_multinomial"]}
{"id": "C18", "title": "The constant mechanism puts all the mass on the given state", "statement": "f.constant(s) is a table over the single left variable with value 1 at s and 0 elsewhere, and a state outside the domain is rejected.", "quantifier": "all conditional factors with one left variable, all states", "why_tests_cant": "Unbounded domains.", "anchors": ["bcause/factors/mulitnomial.py:MultinomialFactor.constant", "bcause/factors/deterministic.py:DeterministicFactor.constant"]}
{"id": "C19", "title": "The canonical equation enumerates every response function exactly once", "statement": "canonical_deterministic(domain, U, parents) gives an equation in which each state of U selects a different function from parent configurations to states of X, and every such function is selected by one state.", "quantifier": "all cardinalities, any number of endogenous parents", "why_tests_cant": "The number of functions is exponential in the number of configurations.", "anchors": ["bcause/factors/deterministic.py:canonical_deterministic", "bcause/factors/mulitnomial.py:canonical_multinomial"]}
{"id": "C20", "title": "Random and uniform conditional tables are normalised", "statement": "For every configuration of the right variables the values produced by normalize_array (used by random_multinomial and uniform_multinomial) sum to one over the left variables, and are non-negative.", "quantifier": "all shapes, all choices of left axes, all arrays of draws with non-zero column sums", "why_tests_cant": "All shapes and all outcomes of the generator.", "anchors": ["bcause/util/arrayutils.py:normalize_array", "bcause/factors/mulitnomial.py:random_multinomial/uniform_multinomial"]}
{"id": "C21", "title": "Barren nodes are exactly those without queried descendants", "statement": "barren_nodes(dag, S) returns exactly the nodes that are not in S and have no descendant in S, and barren_removal keeps the others with the edges among them.", "quantifier": "all DAGs, all S", "why_tests_cant": "All graphs; the loop runs an unbounded number of rounds.", "anchors": ["bcause/util/graphutils.py:_barren_info/barren_nodes/barren_removal"]}
{"id": "C22", "title": "DAG string notation round-trips", "statement": "str2dag(dag2str(G)) has the same nodes and edges as G.", "quantifier": "all DAGs with names free of the characters [ ] | :", "why_tests_cant": "All graphs and names.", "anchors": ["bcause/util/graphutils.py:dag2str/str2dag", "bcause/models/pgmodel.py:DiscreteDAGModel.get_dag_str"]}
{"id": "C23", "title": "Markov blanket is parents, children and co-parents", "statement": "model.markov_blanket(v) returns, without repetition, exactly the parents of v, the children of v and the other parents of its children.", "quantifier": "all DAGs, all nodes", "why_tests_cant": "All graphs.", "anchors": ["bcause/models/pgmodel.py:DiscreteDAGModel.markov_blanket", "bcause/util/graphutils.py:markov_blanket"]}
{"id": "C24", "title": "Nodes reported d-separated really carry no information", "statement": "If dsep_nodes(dag, target, evidence) reports v, then in every network over that DAG observing v in addition to the evidence does not change the posterior of the target.", "quantifier": "all DAGs, all targets and evidence sets, all conditional tables with positive evidence probability", "why_tests_cant": "Quantifies over all probability tables.", "anchors": ["bcause/util/graphutils.py:dsep_nodes/dcon_nodes"]}
{"id": "C25", "title": "Every built-in heuristic returns a complete elimination order", "statement": "min_fill, min_size and min_weight return each requested variable exactly once, always choosing a variable of minimal current cost, whatever the tie-breaking.", "quantifier": "all DAGs, all subsets to remove, all tie-breaking choices", "why_tests_cant": "All graphs and all random outcomes.", "anchors": ["bcause/inference/ordering.py:_get_elim_ordering"]}
{"id": "C26", "title": "A model only accepts tables that match its graph", "statement": "With factor checking on, every table in a constructed model has exactly its node as left variable and exactly the node's parents as right variables; any other assignment raises ValueError and leaves the model unchanged.", "quantifier": "all DAGs, all sequences of set_factor calls", "why_tests_cant": "Histories of calls are unbounded.", "anchors": ["bcause/models/pgmodel.py:PGModel.set_factor", "bcause/models/pgmodel.py:DiscreteDAGModel._set_factors"]}
{"id": "C27", "title": "A constructed model has consistent domains", "statement": "In a model whose construction succeeded, all tables mentioning a variable list the same states for it.", "quantifier": "all DAGs, all families of tables, all orders in which they are given", "why_tests_cant": "The check is incremental: whether an inconsistency is caught may depend on the order in which tables are set.", "anchors": ["bcause/models/pgmodel.py:PGModel.set_factor"]}
{"id": "C28", "title": "Cyclic graphs are rejected", "statement": "Constructing a model over a directed graph succeeds exactly when the graph has no directed cycle.", "quantifier": "all directed graphs", "why_tests_cant": "All graphs, cycles of any length.", "anchors": ["bcause/models/pgmodel.py:DiscreteDAGModel._initialize"]}
{"id": "C29", "title": "The joint distribution of a network sums to one", "statement": "For every network of normalised tables, prob() summed over all joint states is one, and the joint restricted to an ancestral set is the product of its tables.", "quantifier": "all DAGs, all normalised tables", "why_tests_cant": "All networks.", "anchors": ["bcause/models/pgmodel.py:PGModel.prob"]}
{"id": "C30", "title": "Sampling only produces possible records", "statement": "Every record returned by model.sample assigns to each variable exactly one of its states and has positive joint probability, whatever the random generator returns; n samples are returned.", "quantifier": "all networks, all outcomes of the generator, all n", "why_tests_cant": "Randomness; all histories of draws.", "anchors": ["bcause/models/sampling.py:forward_sampling", "bcause/factors/mulitnomial.py:MultinomialFactor._sample/sample_conditional"]}
{"id": "C31", "title": "Intervention is the truncated factorisation", "statement": "model.intervention(**do) has the graph without the edges into the intervened variables and its joint is the product of the tables of the other variables where the intervened variables have the given values, and zero elsewhere.", "quantifier": "all structural causal models, all interventions", "why_tests_cant": "All models.", "anchors": ["bcause/models/cmodel.py:StructuralCausalModel.intervention", "bcause/util/graphutils.py:remove_ingoing_edges"]}
{"id": "C32", "title": "Interventions compose", "statement": "Interventions on disjoint sets of variables commute and equal the simultaneous intervention; repeating the same intervention changes nothing.", "quantifier": "all models, all pairs of interventions", "why_tests_cant": "All models and interventions.", "anchors": ["bcause/models/cmodel.py:StructuralCausalModel.intervention"]}
{"id": "C33", "title": "Converting an SCM to multinomial tables or to a Bayesian network keeps its distribution and its variable roles", "statement": "to_multinomial() and to_bnet() keep graph, joint distribution and (to_multinomial) the endogenous/exogenous classification.", "quantifier": "all SCMs, including those whose endogenous list was given explicitly or that result from an intervention", "why_tests_cant": "All models and histories of interventions.", "anchors": ["bcause/models/cmodel.py:StructuralCausalModel.to_multinomial/to_bnet", "bcause/models/transform/conversion.py"]}
{"id": "C34", "title": "Renaming the variables of a model is a pure relabelling", "statement": "model.rename_vars(m) for injective m has the renamed graph and its joint at a renamed assignment equals the original joint.", "quantifier": "all models, all injective mappings", "why_tests_cant": "All models and mappings.", "anchors": ["bcause/models/pgmodel.py:DiscreteDAGModel.rename_vars", "bcause/models/cmodel.py:StructuralCausalModel.rename_vars"]}
{"id": "C35", "title": "Fusing worlds on their exogenous variables gives the twin-network joint", "statement": "The model built for a counterfactual query has one copy of the exogenous tables and, for the factual world and each hypothetical world, a copy of the endogenous tables (intervened, renamed); its joint is the product of them all.", "quantifier": "all SCMs, any number of hypothetical worlds", "why_tests_cant": "All models and numbers of worlds.", "anchors": ["bcause/models/transform/combination.py:fusion_roots", "bcause/inference/causal/causal.py:CausalInference._preprocess"]}
{"id": "C36", "title": "Variable elimination returns the exact posterior", "statement": "VariableElimination(model).query(target, evidence) returns a factor over exactly the target variables whose value at each joint state is P(target, evidence)/P(evidence) computed from the full joint, whenever P(evidence)>0.", "quantifier": "all networks of normalised tables, all targets, all evidence with positive probability, all states", "why_tests_cant": "All networks; the pruning, ordering and factor discarding are all value dependent on structure.", "anchors": ["bcause/inference/probabilistic/elimination.py:VariableElimination.run", "bcause/inference/probabilistic/probabilistic.py:ProbabilisticInference.compile/query"]}
{"id": "C37", "title": "The answer does not depend on the elimination heuristic", "statement": "Any two heuristics (built-in or user supplied) that return each variable to remove once give the same answer.", "quantifier": "all networks, all queries, all heuristics", "why_tests_cant": "All orders.", "anchors": ["bcause/inference/probabilistic/elimination.py:VariableElimination", "bcause/inference/ordering.py"]}
{"id": "C38", "title": "Pruning irrelevant nodes does not change the query", "statement": "minimalize(model, target, evidence) keeps every target, and the posterior of the target computed from the pruned model equals that of the full model; the removed nodes are exactly the barren nodes and those disconnected from the target once edges out of evidence are cut.", "quantifier": "all networks, all targets and evidence", "why_tests_cant": "All graphs.", "anchors": ["bcause/models/transform/simplification.py:minimalize"]}
{"id": "C39", "title": "Conditional queries return the conditional distribution", "statement": "query(target, conditioning=C, evidence=e) returns P(target|C,e): its value is P(t,c,e)/P(c,e) where that is defined and 0 where P(c,e)=0, and sums to one over the target for every possible configuration of C.", "quantifier": "all networks, all disjoint targets, conditioning and evidence", "why_tests_cant": "All networks.", "anchors": ["bcause/inference/probabilistic/probabilistic.py:ProbabilisticInference.query"]}
{"id": "C40", "title": "Impossible evidence gives an all-zero answer, never NaN", "statement": "With the default store, a query whose evidence has probability zero in the pruned model returns a table of zeros.", "quantifier": "all networks, all impossible evidence", "why_tests_cant": "All networks.", "anchors": ["bcause/inference/probabilistic/elimination.py:VariableElimination.run", "bcause/factors/values/numpyops.py:NumpyStoreOperations.divide"]}
{"id": "C41", "title": "Ill-formed queries are refused", "statement": "Repeated targets, targets that are also evidence (or conditioning) and unknown variables raise before any computation and leave the inference object's compiled state unchanged.", "quantifier": "all queries, all histories of previous queries", "why_tests_cant": "All inputs and histories.", "anchors": ["bcause/inference/probabilistic/probabilistic.py:ProbabilisticInference.compile", "bcause/util/assertions.py"]}
{"id": "C42", "title": "Causal queries compute the interventional distribution", "statement": "causal_query(T, do, evidence) returns P(T | do, evidence) computed from the truncated factorisation.", "quantifier": "all SCMs, all interventions, targets, evidence with positive probability under the intervention", "why_tests_cant": "All models.", "anchors": ["bcause/inference/causal/causal.py:CausalInference.query/compile/_preprocess", "bcause/inference/causal/elimination.py"]}
{"id": "C43", "title": "Counterfactual queries compute the counterfactual distribution", "statement": "counterfactual_query(T, do, evidence) returns sum_u P(u)[V(u) agrees with evidence][T_do(u)=t] / sum_u P(u)[V(u) agrees with evidence].", "quantifier": "all SCMs with degenerate endogenous tables, all interventions, targets, evidence with positive probability", "why_tests_cant": "All models.", "anchors": ["bcause/inference/causal/causal.py:CausalInference.counterfactual_query", "bcause/models/transform/combination.py:fusion_roots"]}
{"id": "C44", "title": "Counterfactual queries succeed for every intervention on model variables", "statement": "A counterfactual query whose intervened, target and evidence variables all belong to the model, with positive-probability evidence, returns an answer rather than failing.", "quantifier": "all SCMs, all interventions including those on variables without children", "why_tests_cant": "All graphs.", "anchors": ["bcause/models/transform/combination.py:fusion_roots", "bcause/inference/causal/causal.py"]}
{"id": "C45", "title": "Consistency: an intervention that agrees with the evidence changes nothing", "statement": "If the evidence contains X=x, the counterfactual answer for T under do(X=x) equals the ordinary posterior of T given the evidence.", "quantifier": "all SCMs, all evidence", "why_tests_cant": "All models.", "anchors": ["bcause/inference/causal/causal.py:CausalInference.counterfactual_query"]}
{"id": "C46", "title": "Probabilities of causation", "statement": "prob_necessity, prob_sufficiency and prob_necessity_sufficiency return the corresponding counterfactual probabilities; they lie in [0,1] and satisfy PNS = P(x,y) PN + P(x',y') PS for binary cause and effect.", "quantifier": "all SCMs, all binary cause/effect pairs", "why_tests_cant": "All models.", "anchors": ["bcause/inference/causal/causal.py:CausalInference.prob_necessity/prob_sufficiency/prob_necessity_sufficiency"]}
{"id": "C47", "title": "True/false states are identified independently of their order", "statement": "identify_true_false returns the two states of the domain, does not depend on the order in which they are listed, and refuses non-binary or mixed-type domains.", "quantifier": "all variable names, all domains", "why_tests_cant": "All strings and domains.", "anchors": ["bcause/util/domainutils.py:identify_true_false"]}
{"id": "C48", "title": "Inference from data returns relative frequencies", "statement": "LaplaceInference.query(T, evidence) at t is (number of rows agreeing with t and the evidence)/(number of rows agreeing with the evidence), for complete data within the domains.", "quantifier": "all data sets, all queries with at least one matching row", "why_tests_cant": "All data sets.", "anchors": ["bcause/inference/probabilistic/datainference.py:LaplaceInference.run", "bcause/util/datautils.py:to_counts/filter_data"]}
{"id": "C49", "title": "max_log_likelihood bounds log_likelihood", "statement": "For every data set, the log-likelihood obtained with the empirical conditional tables is at least the one obtained with any other tables over the same decomposition graph.", "quantifier": "all data sets, all graphs, all tables", "why_tests_cant": "All tables: a continuum.", "anchors": ["bcause/models/cmodel.py:StructuralCausalModel.log_likelihood/max_log_likelihood"]}
{"id": "C50", "title": "Interval results are the tight envelope of the precise ones", "statement": "The interval returned by multi-model inference (from_precise, or [min,max] for scalars) contains the value of every precise model and both bounds are attained.", "quantifier": "all non-empty lists of models/factors, all states", "why_tests_cant": "All numbers of models.", "anchors": ["bcause/factors/imprecise.py:IntervalProbFactor.from_precise/restrict", "bcause/inference/causal/multi.py:CausalMultiInference._process_output"]}
{"id": "C51", "title": "Multi-model inference always answers for the current models", "statement": "After any sequence of set_models, add_models, compile and query calls, a query aggregates over exactly the models currently set, and with no models it is refused.", "quantifier": "all histories of calls", "why_tests_cant": "All call sequences.", "anchors": ["bcause/inference/causal/multi.py:CausalMultiInference"]}
{"id": "C52", "title": "Incremental compilation yields after every batch and stops at the requested number of runs", "statement": "compile_incremental(step) yields after adding each batch of step models, the number of models grows by step each time and the loop ends as soon as it reaches num_runs.", "quantifier": "all num_runs, all positive steps", "why_tests_cant": "All values.", "anchors": ["bcause/inference/causal/multi.py:EMCC.compile_incremental"]}
{"id": "C53", "title": "Learning objects and learned models correspond", "statement": "After generating n models, learn_objects[i] is the run that produced models[i]; repeated runs accumulate; this must hold whatever the thread schedule in parallel mode.", "quantifier": "all numbers of models, all thread schedules", "why_tests_cant": "Thread schedules.", "anchors": ["bcause/learning/aggregator/aggregator.py:ModelAggregator.generate", "bcause/inference/causal/multi.py:GDCC.get_model_evolution"]}
{"id": "C54", "title": "The learning loop performs at most max_iter steps and records each of them", "statement": "run(data, max_iter) performs between min(1,max_iter) and max_iter steps, stops at the first step after which the stopping rule holds, and model_evolution is the prior followed by the model after every step.", "quantifier": "all stopping rules, all max_iter, all update functions", "why_tests_cant": "All histories.", "anchors": ["bcause/learning/parameter/parameter.py:IterativeParameterLearning.run/step/_update_model"]}
{"id": "C55", "title": "Running EM again learns again", "statement": "A second call of run on the same EM object learns from the new data in the same way as a fresh object would.", "quantifier": "all histories of runs", "why_tests_cant": "Histories.", "anchors": ["bcause/learning/parameter/expectation_maximization.py:ExpectationMaximization", "bcause/learning/parameter/parameter.py"]}
{"id": "C56", "title": "EM only changes trainable variables and keeps tables normalised", "statement": "After any number of EM steps every non-trainable table is unchanged and every re-estimated exogenous table is non-negative and sums to one.", "quantifier": "all models, data sets, numbers of steps", "why_tests_cant": "All histories.", "anchors": ["bcause/learning/parameter/expectation_maximization.py:ExpectationMaximization._maximization", "bcause/learning/parameter/parameter.py:_update_model"]}
{"id": "C57", "title": "Expected counts count each record once", "statement": "The weights with which EM uses the distinct observations add up to the number of records.", "quantifier": "all data sets, including those with missing values", "why_tests_cant": "All missingness patterns.", "anchors": ["bcause/learning/parameter/expectation_maximization.py:ExpectationMaximization._get_obs_counts", "bcause/util/datadeps.py:DataDepAnalysis"]}
{"id": "C58", "title": "An EM step never decreases the likelihood", "statement": "The likelihood of the data under the exogenous distribution after an EM step is at least the one before it.", "quantifier": "all models with degenerate equations, all data with positive probability", "why_tests_cant": "A continuum of parameters.", "anchors": ["bcause/learning/parameter/expectation_maximization.py"]}
{"id": "C59", "title": "Expected counts respect observed parents", "statement": "When a trainable variable has observed parents, a record only contributes to the counts of its own parent configuration.", "quantifier": "all models, all records", "why_tests_cant": "All models.", "anchors": ["bcause/learning/parameter/expectation_maximization.py:ExpectationMaximization._expectation"]}
{"id": "C60", "title": "Distinct observations are kept once, in order", "statement": "The list of distinct observation patterns contains every pattern of the data exactly once, keeping the first occurrence.", "quantifier": "all data sets", "why_tests_cant": "All lists.", "anchors": ["bcause/util/datadeps.py:DataDepAnalysis.__obs_unique"]}
{"id": "C61", "title": "The gradient objective is the negative log-likelihood of the component", "statement": "negative_log_likelihood(theta) equals minus the sum over records of log sum_u theta_u [equations give the record at u], and is infinite exactly when some observed record is impossible.", "quantifier": "all data, all theta, all models in which each endogenous child has one exogenous parent", "why_tests_cant": "A continuum of parameters.", "anchors": ["bcause/learning/parameter/gradient.py:GradientLikelihood._compute_N_and_P/_compute_P/negative_log_likelihood"]}
{"id": "C62", "title": "Asking for the domains of a variable returns that variable's domain only", "statement": "get_domains(v) with a single variable name returns exactly the domain of v.", "quantifier": "all models and names", "why_tests_cant": "All names: the code tests substring membership.", "anchors": ["bcause/models/pgmodel.py:DiscreteDAGModel.get_domains", "bcause/learning/parameter/gradient.py:_updated_factor"]}
{"id": "C63", "title": "UAI save/read round-trips a Bayesian network", "statement": "Writing a network in UAI format and reading it back gives, up to the canonical renaming, the same graph and the same tables.", "quantifier": "all networks", "why_tests_cant": "All graphs (isolated nodes, more than ten nodes) and all values (small probabilities).", "anchors": ["bcause/readwrite/bnwrite.py:to_uai", "bcause/readwrite/bnread.py:from_uai"]}
{"id": "C64", "title": "UAI save/read round-trips a structural causal model", "statement": "Writing an SCM in UAI format and reading it back gives, up to renaming, the same graph, exogenous tables and equations.", "quantifier": "all SCMs", "why_tests_cant": "All graphs and domains.", "anchors": ["bcause/readwrite/scmwrite.py:to_uai", "bcause/readwrite/scmread.py:from_uai", "bcause/readwrite/bnwrite.py:to_uai"]}
{"id": "C65", "title": "Export to pgmpy passes the right table", "statement": "The 2-D table handed over for P(X|pa) has in row i, column j the value of P(X = i-th state | j-th parent configuration).", "quantifier": "all conditional tables, any number of parents and cardinalities", "why_tests_cant": "All shapes.", "anchors": ["bcause/conversion/pgmpy.py:toTabularCPT"]}
{"id": "C66", "title": "C-components partition the endogenous variables", "statement": "endo_ccomponents are pairwise disjoint and cover every endogenous variable that has an exogenous parent; two endogenous children of the same exogenous variable are in the same component.", "quantifier": "all SCMs", "why_tests_cant": "All graphs.", "anchors": ["bcause/models/cmodel.py:DiscreteCausalDAGModel.ccomponents/endo_ccomponents/exo_graph", "bcause/models/info.py"]}
{"id": "C67", "title": "The decomposition graph is a DAG", "statement": "qgraph contains the endogenous graph and is acyclic, so that the quasi-network needed for the likelihood can be built.", "quantifier": "all SCMs", "why_tests_cant": "All graphs.", "anchors": ["bcause/models/info.py:get_qgraph", "bcause/models/cmodel.py:StructuralCausalModel.get_qbnet"]}
{"id": "C68", "title": "The binary-tree store represents its table", "statement": "Looking up any joint state in the tree built from a non-negative table returns the table's value.", "quantifier": "all non-negative tables", "why_tests_cant": "All tables.", "anchors": ["bcause/factors/values/btreestore.py:BTreeStore._build_from_table/_best_split_point", "bcause/factors/values/btreestore.py:BTreeNode"]}
{"id": "C69", "title": "Derived factors do not share mutable data with their source", "statement": "Writing into a factor obtained by restriction never changes the factor it was obtained from.", "quantifier": "all stores, all histories of restrictions and writes", "why_tests_cant": "Histories and aliasing.", "anchors": ["bcause/factors/values/treedictops.py:TreeDictStoreOperations._restrict_dict", "bcause/factors/values/treedictstore.py:TreeDictStore.set_value"]}
{"id": "C70", "title": "powerset enumerates every subset once", "statement": "powerset(xs) has 2^n elements, each a sub-sequence of xs, all different when the elements are.", "quantifier": "all finite sequences", "why_tests_cant": "All lengths.", "anchors": ["bcause/util/arrayutils.py:powerset"]}
{"id": "C71", "title": "Reading with an incomplete observation", "statement": "get_value with some variables unobserved: what it returns does not depend on the representation of the factor.", "quantifier": "all factors, all observations of some of their variables, all representations", "why_tests_cant": "All tables and observations.", "anchors": ["bcause/factors/values/numpystore.py:NumpyStore.get_value", "bcause/factors/values/liststore.py:ListStore.get_value", "bcause/factors/values/treedictstore.py:TreeDictStore.get_value"]}
{"id": "C72", "title": "Markov blankets with hidden variables separate", "statement": "Given the observed variables in markov_blanket(dag, v, hidden), the other observed variables are independent of v; when nothing is hidden the result is the set of parents, children and other parents of children.", "quantifier": "all acyclic graphs, all networks over them, all sets of hidden variables", "why_tests_cant": "All graphs and distributions.", "anchors": ["bcause/util/graphutils.py:markov_blanket", "bcause/util/graphutils.py:dcon_nodes"]}
{"id": "C73", "title": "Dropping separated observations changes no posterior", "statement": "The minimal observations that get_minimal_obs_blanket makes of a record give the same distribution of the target as the whole record.", "quantifier": "all networks, all records of positive probability, all targets not observed in them", "why_tests_cant": "All networks and records.", "anchors": ["bcause/util/datadeps.py:DataDepAnalysis.get_minimal_obs_blanket"]}
{"id": "C75", "title": "Conversion to pgmpy and back keeps a network", "statement": "toPgmpyBNet followed by toBCauseBNet gives a network with the same variables, parents, states and tables.", "quantifier": "all networks, all representations of their factors", "why_tests_cant": "All networks and tables.", "anchors": ["bcause/conversion/pgmpy.py:toBCauseBNet", "bcause/conversion/pgmpy.py:toPgmpyBNet", "bcause/conversion/pgmpy.py:toMultinomialFactor", "bcause/conversion/pgmpy.py:toTabularCPT"]}
{"id": "C74", "title": "The submodel on an ancestral set is the marginal", "statement": "submodel(nodes), for nodes that contain all their parents, returns a network on these nodes with the marginal distribution of the whole network.", "quantifier": "all networks, all sets of nodes closed under parents", "why_tests_cant": "All networks and sets.", "anchors": ["bcause/models/pgmodel.py:DiscreteDAGModel.submodel", "bcause/models/bnet.py:BayesianNetwork.builder"]}
{"id": "C76", "title": "The binary tree splits where most is gained", "statement": "_best_split_point returns a variable and a split of its states whose information is at least that of every other split.", "quantifier": "all non-negative tables with different entries", "why_tests_cant": "A continuum of tables.", "anchors": ["bcause/factors/values/btreestore.py:BTreeStore._best_split_point"]}
{"id": "C77", "title": "log_likelihood is the log-probability of the records", "statement": "For a model whose exogenous variables have no endogenous parents, whose endogenous variables each have an exogenous parent and whose decomposition graph is acyclic, log_likelihood(data) is the sum over the records of the logarithm of the probability of their endogenous values: the conditional distributions given the parents in the decomposition graph multiply to the distribution of the endogenous variables.", "quantifier": "all models, all complete data frames, all topological orders and all orders of python's sets", "why_tests_cant": "All graphs and distributions; the factorisation is a theorem on d-separation, not a computation.", "anchors": ["bcause/models/cmodel.py:StructuralCausalModel.log_likelihood", "bcause/models/cmodel.py:StructuralCausalModel.get_qbnet", "bcause/models/info.py:get_qgraph", "bcause/models/info.py:get_qfactors"]}
{"id": "C78", "title": "The factors of a component are an interventional distribution", "statement": "The tables that get_qfactors returns for a component multiply to the probability of the values of the component when the values of all the other endogenous variables are imposed.", "quantifier": "all models as in C77, all components, all values of positive probability", "why_tests_cant": "All graphs and distributions.", "anchors": ["bcause/models/info.py:get_qfactors", "bcause/models/cmodel.py:StructuralCausalModel.get_qfactorisation", "bcause/models/info.py:get_qgraph"]}
{"id": "C79", "title": "Arithmetic expressions over factors compute the same arithmetic on their cells", "statement": "An expression built from factors and numbers with *, +, -, /, ** (sum out) and R (restrict) evaluates to a factor over the variables of the expression, in order of appearance; each of its cells is the value of the same expression on the cells of the factors, and its left variables are those the expression implies. In particular a factor without the summed variables can be taken out of a sum. Numbers may stand on either side of an operator.", "quantifier": "for every expression tree, every family of factors, every store type and every joint states", "why_tests_cant": "Tests multiply two or three given tables; nesting, scalars, order of variables and left/right bookkeeping interact in infinitely many expressions.", "anchors": ["bcause/factors/mulitnomial.py:MultinomialFactor.__mul__", "bcause/factors/mulitnomial.py:MultinomialFactor.__rmul__", "bcause/factors/mulitnomial.py:MultinomialFactor.__pow__", "bcause/factors/mulitnomial.py:MultinomialFactor._prepare_operand"]}
{"id": "C80", "title": "Models filled at random are proper models", "statement": "Whatever the generator returns, fill_random_factors turns a causal model whose exogenous variables are roots into one with zero-one equations and normalised marginals over the given states; randomize_factors gives new conditional tables to non-endogenous variables, in place or in a copy, and keeps the rest; BayesianNetwork.randomize_factors gives a normalised network. Endogenous variables, unknown states and changed states are refused.", "quantifier": "for every acyclic graph, all domains, every outcome of the generator with a non-zero number in each column, every store type", "why_tests_cant": "The outcome of the generator ranges over a continuum; a test sees one seed.", "anchors": ["bcause/models/cmodel.py:StructuralCausalModel.fill_random_factors", "bcause/models/cmodel.py:StructuralCausalModel.randomize_factors", "bcause/models/bnet.py:BayesianNetwork.randomize_factors", "bcause/factors/mulitnomial.py:random_deterministic"]}
{"id": "C81", "title": "EMCC: from the records to the bounds of a causal query", "statement": "EMCC draws the exogenous distributions at random, fits them to the records by expectation maximisation on the causal model, and repeats this. Whatever is drawn, when the records can be produced by the equations and observe no exogenous variable, every run succeeds; each fitted model has the graph, the states and the equations of the given model and normalised non-negative exogenous distributions; the probability of the records under it is at least that under the drawn model. The answer to an interventional query is an interval factor whose bounds at each state are the least and the greatest of the interventional probabilities in the fitted models.", "quantifier": "for all causal models with exogenous roots, all records, all draws, numbers of models and of iterations, all stopping rules, interventions and targets", "why_tests_cant": "Continuum of draws and models; the property joins random generation, learning, variable elimination and interval factors.", "anchors": ["bcause/inference/causal/multi.py:EMCC.compile", "bcause/inference/causal/multi.py:CausalMultiInference.query", "bcause/learning/aggregator/aggregator.py:SimpleModelAggregatorEM", "bcause/learning/parameter/expectation_maximization.py:ExpectationMaximization", "bcause/models/cmodel.py:StructuralCausalModel.randomize_factors"]}
{"id": "C82", "title": "Counterfactual bounds from several models", "statement": "A counterfactual query, prob_necessity, prob_sufficiency or prob_necessity_sufficiency put to a CausalMultiInference object returns the least and the greatest of the values that its current models give, or all of them in the order of the models when no interval is asked for. For EMCC the models are the fitted ones, and the bounds lie between zero and one; the probability of necessity is defined as soon as one record has the cause and the effect. True and false states that are not given are those of the current models.", "quantifier": "for all non-empty lists of causal models with the same states of the effect, all causes and effects, compiled or not, all draws and records", "why_tests_cant": "Joins counterfactual inference in twin networks, learning with random starts, and interval factors; tests check one model against stored numbers.", "anchors": ["bcause/inference/causal/multi.py:CausalMultiInference._process_output", "bcause/inference/causal/multi.py:CausalMultiInference.query", "bcause/inference/causal/causal.py:CausalInference.prob_necessity", "bcause/inference/causal/causal.py:CausalInference.prob_sufficiency", "bcause/inference/causal/causal.py:CausalInference.prob_necessity_sufficiency", "bcause/inference/causal/multi.py:EMCC.compile"]}
{"id": "C83", "title": "Gradient learning: separate optimisation gives the likeliest model", "statement": "GradientLikelihood.run optimises each trainable exogenous variable on its own. Whatever the optimiser returns becomes the tables of a copy of the prior, the rest is kept, and further steps change nothing. If the optimiser finds for each variable a distribution with the least objective, then no causal model with the same equations, and other distributions of these variables, makes the records more likely; if it only does not increase the objectives, the records are at least as likely as under the prior. Endogenous variables and variables with values in the data are refused.", "quantifier": "for all causal models with exogenous roots in which no variable has two exogenous parents, all complete records, all optimisers, all numbers of iterations", "why_tests_cant": "The optimiser and the distributions range over a continuum; that separate optima give a joint one is a theorem on the factorisation.", "anchors": ["bcause/learning/parameter/gradient.py:GradientLikelihood.run", "bcause/learning/parameter/gradient.py:GradientLikelihood._process_data", "bcause/learning/parameter/gradient.py:GradientLikelihood._updated_factor", "bcause/learning/parameter/parameter.py:IterativeParameterLearning.step"]}
{"id": "C84", "title": "GDCC: bounds over models of greatest likelihood", "statement": "When the optimiser finds least objectives, every model that SimpleModelAggregatorGD returns has the equations of the given model and greatest likelihood among the models with these equations; any two of them give each record the same probability, so that they differ only in what the records do not determine. The answers of GDCC to interventional queries and its probabilities of necessity and sufficiency are the least and the greatest of the values in these models.", "quantifier": "for all causal models as in C83, all records that the equations can produce, all draws, numbers of models, interventions and targets", "why_tests_cant": "Continuum of draws and models; that maximisers agree on the records rests on strict concavity of the logarithm.", "anchors": ["bcause/inference/causal/multi.py:GDCC.compile", "bcause/learning/aggregator/aggregator.py:SimpleModelAggregatorGD", "bcause/inference/causal/multi.py:CausalMultiInference.query", "bcause/learning/parameter/gradient.py:GradientLikelihood"]}
{"id": "C85", "title": "Interventional and observational queries agree where the graph says so", "statement": "The answers of causal_query satisfy the rules of do-calculus with respect to the graphs of remove_ingoing_edges and remove_outgoing_edges and the separation of dsep_nodes: separated observations can be dropped, separated interventions can be replaced by observations, interventions from which neither target nor evidence is reached can be dropped. If the variables Z are not reached from X and separate X from the target in the graph without the edges out of X, then (P(T | X, Z).R(X=x) * P(Z)) ** Z, evaluated on factors returned by the observational queries, is the factor causal_query returns for do(X=x).", "quantifier": "for all structural causal models, targets, evidence, sets of imposed variables, elimination orders and stores for which the conditions have non-zero probability", "why_tests_cant": "Relates two different computations over all models with a graph; a test compares one model and one query.", "anchors": ["bcause/inference/causal/causal.py:CausalInference.causal_query", "bcause/util/graphutils.py:dsep_nodes", "bcause/util/graphutils.py:remove_outgoing_edges", "bcause/util/graphutils.py:remove_ingoing_edges", "bcause/inference/elimination/variableelimination.py:VariableElimination", "bcause/factors/mulitnomial.py:MultinomialFactor"]}
{"id": "C86", "title": "An equation read from rows computes the rows", "statement": "DeterministicFactor.from_data_frame, given a frame in which every configuration of the other columns appears in one row, returns the equation of the left variable whose value at each configuration is the one in its row, whatever the order of rows and columns. A frame with the wrong number of rows is refused, and the frame of the caller is not altered when its cells are states.", "quantifier": "for all frames, domains, orders of rows and columns, left variables and stores", "why_tests_cant": "All functions of any number of variables and all orders of the rows; the method has no tests and no callers in the repository.", "anchors": ["bcause/factors/deterministic.py:DeterministicFactor.from_data_frame", "bcause/factors/deterministic.py:DeterministicFactor.__init__", "bcause/factors/factor.py:ConditionalFactor.set_variables", "bcause/util/domainutils.py:subdomain"]}
{"id": "C87", "title": "Bounds coincide where adjustment identifies the query", "statement": "If some distributions of the exogenous variables make each record as probable as it is frequent, every model that GDCC learns has the frequencies of the records as its distribution of the endogenous variables. If further the variables Z are not reached from X and separate X from the target in the graph without the edges out of X, and every state of Z occurs in the records together with X=x, then both bounds of GDCC.causal_query for do(X=x) are the sum over z of #(t,x,z)/#(x,z) * #(z)/n, whatever the random starting points and the number of models.", "quantifier": "for all causal models as in C83, all complete records that some such model fits, all draws, numbers of models, targets and adjusting variables", "why_tests_cant": "A statement on all models of greatest likelihood, a continuum, and on all data; a test compares one run with one number.", "anchors": ["bcause/inference/causal/multi.py:GDCC.compile", "bcause/inference/causal/multi.py:CausalMultiInference.query", "bcause/inference/causal/causal.py:CausalInference.causal_query", "bcause/learning/parameter/gradient.py:GradientLikelihood.run", "bcause/util/graphutils.py:dsep_nodes"]}
{"id": "C88", "title": "A saved model is the one that is read", "statement": "After any sequence of calls of save, whichever fail, read gives the model that was saved last in that file, under whatever name the file is given, and a save does not change what other files hold. A .uai file gives the same tables over V0, V1, ... and 0, 1, ...; a .bif or .xmlbif file keeps names and states, provided that pgmpy reads back what it wrote. A network is not read as a causal model nor the other way round from .uai files, and other endings are refused.", "quantifier": "for all models, paths, disks, sequences of calls, formats and stores", "why_tests_cant": "Ranges over histories of calls and over all spellings of paths; the tests save one model and read it at once.", "anchors": ["bcause/models/pgmodel.py:PGModel.save", "bcause/models/pgmodel.py:PGModel.read", "bcause/readwrite/bnwrite.py:to_uai", "bcause/readwrite/bnread.py:from_uai", "bcause/readwrite/scmwrite.py:to_bif", "bcause/readwrite/scmread.py:from_bif", "bcause/util/assertions.py:assert_file_exists"]}
{"id": "C89", "title": "Answers respect the bounds given by observations and experiments", "statement": "P(t | do(d)) answered by causal_query lies between P(t, d) and P(t, d) + 1 - P(d). prob_necessity_sufficiency lies between P(te | do(tc)) + P(fe | do(fc)) - 1 and each of the two; for a cause and an effect with two states it lies within the bounds of Tian and Pearl, and so do prob_necessity and prob_sufficiency; if the cause never prevents the effect the values are differences of probabilities. The bounds of GDCC for interventions and for necessity and sufficiency lie within the same bounds with the frequencies of the records.", "quantifier": "for all structural causal models, causes, effects, interventions, orderings and stores; for GDCC all complete data that some model with the equations fits, all numbers of runs and all random draws", "why_tests_cant": "Inequalities between answers to different queries on every model; the tests compare single numbers for two models.", "anchors": ["bcause/inference/causal/causal.py:CausalInference.causal_query", "bcause/inference/causal/causal.py:CausalInference.prob_necessity_sufficiency", "bcause/inference/causal/causal.py:CausalInference.prob_necessity", "bcause/inference/causal/causal.py:CausalInference.prob_sufficiency", "bcause/inference/causal/multi.py:GDCC.compile"]}
{"id": "C90", "title": "Which counterfactual queries are answered", "statement": "counterfactual_query returns an answer exactly when every intervened variable has parents and a child that is not intervened in the same world, and every target is a variable with parents of an existing world, not intervened there and not asked for twice; every other query raises, whatever the evidence. prob_necessity_sufficiency, prob_necessity and prob_sufficiency return a number exactly for two different variables with parents of which the cause has a child.", "quantifier": "for all structural causal models without variables named like copies, all lists of interventions with existing states, all non-empty lists of targets; answers need evidence of non-zero probability", "why_tests_cant": "A statement about all graphs and all queries on them; the tests call the queries on two models for which they succeed.", "anchors": ["bcause/inference/causal/causal.py:CausalInference.counterfactual_query", "bcause/inference/causal/causal.py:CausalInference._preprocess", "bcause/models/transform/combination.py:fusion_roots", "bcause/models/cmodel.py:StructuralCausalModel.set_factor"]}
{"id": "C91", "title": "Effects through a mediator are determined by observations", "statement": "If M lies on all directed paths from X to the target, no path joins X and M in the graph without the edges out of X, and X separates M from the target in the graph without the edges out of M, then (P(M | X).R(X=x) * (P(T | M, X) * P(X)) ** X) ** M, evaluated on factors returned by observational queries, is the factor that causal_query returns for do(X=x). Both bounds of GDCC for this question are the same number, the formula with the frequencies of the records, although an unobserved variable may influence both X and the target.", "quantifier": "for all structural causal models in which the states of X and M have non-zero probability, all targets, elimination orders and stores; for GDCC all complete records that some model with the equations fits, all draws and numbers of models", "why_tests_cant": "Relates different computations on all models with such a graph, including all models of greatest likelihood for the data.", "anchors": ["bcause/inference/causal/causal.py:CausalInference.causal_query", "bcause/inference/causal/multi.py:GDCC.compile", "bcause/util/graphutils.py:remove_outgoing_edges", "bcause/inference/elimination/variableelimination.py:VariableElimination", "bcause/factors/mulitnomial.py:MultinomialFactor"]}
{"id": "C92", "title": "Sampled records are independent and have the joint distribution", "statement": "For each record and node, DiscreteDAGModel.sample picks the state in whose cell the draw of the generator falls; the states of a node cut [0,1) into cells as long as their probabilities given the parents in the record. So the draws that give records r1, ..., rn are exactly a box, and for independent uniform draws the probability of these records is the product of their joint probabilities.", "quantifier": "for all networks, topological orders, numbers of records, records and draws in [0,1)", "why_tests_cant": "A statement on a distribution over infinitely many draws; a test sees one pseudo-random sequence, and the repository only checks the number of rows.", "anchors": ["bcause/models/sampling.py:forward_sampling", "bcause/models/pgmodel.py:DiscreteDAGModel.sample", "bcause/factors/mulitnomial.py:MultinomialFactor.sample", "bcause/factors/mulitnomial.py:MultinomialFactor.sample_conditional"]}
{"id": "C93", "title": "Every network can be built and keeps its tables", "statement": "Given the tables of a Bayesian network as lists of values in row-major order of their domains, the constructors of factors and of the model accept them, in whatever order the variables of a table and the factors are listed, with or without checks, and the object has the graph of the network and returns its probabilities. An object represents one network only.", "quantifier": "for all networks, orders of variables in tables, orders of factors and stores", "why_tests_cant": "All graphs, numbers of states and listings; tests build a handful of models in one order.", "anchors": ["bcause/models/bnet.py:BayesianNetwork.__init__", "bcause/models/pgmodel.py:DiscreteDAGModel._set_factors", "bcause/models/pgmodel.py:PGModel.set_factor", "bcause/factors/mulitnomial.py:MultinomialFactor.__init__"]}
{"id": "C94", "title": "Causal models and networks are converted into each other without loss", "statement": "causal_to_bnet turns every structural causal model, before or after interventions, into a network of multinomial tables with the same graph and distribution. bnet_to_causal accepts a network exactly when every variable with parents is a function of them, then keeps its graph, factors and distribution and makes the roots exogenous; otherwise it raises ValueError. The two are inverse to each other.", "quantifier": "for all models, networks and stores", "why_tests_cant": "An equivalence over all models: tests convert one model and compare some numbers.", "anchors": ["bcause/models/transform/conversion.py:causal_to_bnet", "bcause/models/transform/conversion.py:bnet_to_causal", "bcause/models/cmodel.py:StructuralCausalModel.set_factor", "bcause/models/cmodel.py:StructuralCausalModel.from_model"]}
{"id": "C95", "title": "A model is rebuilt from the text of its graph and its factors", "statement": "get_dag_str followed by the constructor that accepts a text gives back a model with the same parents, states and tables; for causal models also with the same exogenous variables.", "quantifier": "for all models whose names contain none of the characters [ ] | :", "why_tests_cant": "All graphs and names; the repository only builds models from texts in which every node has an arc.", "anchors": ["bcause/models/pgmodel.py:DiscreteDAGModel.get_dag_str", "bcause/models/pgmodel.py:DiscreteDAGModel._initialize", "bcause/util/graphutils.py:str2dag", "bcause/models/cmodel.py:StructuralCausalModel.__init__"]}
{"id": "C96", "title": "Sampling the endogenous variables gives independent records with their distribution", "statement": "For every structural causal model, sampleEndogenous returns n records of the endogenous variables, as a data frame or as a list; for independent uniform draws the probability of given records is the product of the probabilities that the model gives to them. Any columns of the sampled records have the marginal distribution of these variables.", "quantifier": "for all causal models, topological orders, numbers of records, records and draws in [0,1)", "why_tests_cant": "A statement on a distribution over infinitely many draws and all models; tests draw one pseudo-random sample of models without deterministic factors.", "anchors": ["bcause/models/cmodel.py:StructuralCausalModel.sampleEndogenous", "bcause/models/pgmodel.py:DiscreteDAGModel.sample", "bcause/models/sampling.py:forward_sampling", "bcause/factors/deterministic.py:DeterministicFactor.sample"]}
{"id": "C97", "title": "Which records expectation maximisation can use", "statement": "For records that are possible, the expected counts are obtained exactly when in every record, for every variable that is still learnt, something of the variable and its parents is missing and something is observed that is not separated from the variable. In particular a run on data with one record that gives a variable to be learnt and its parents fails, and complete records without a list of variables change nothing.", "quantifier": "for all networks, data frames, lists of variables, states of the learning object, orders and stopping rules", "why_tests_cant": "Tests learn exogenous variables that are never observed; the statement is on all patterns of missing values.", "anchors": ["bcause/learning/parameter/expectation_maximization.py:ExpectationMaximization._expectation", "bcause/learning/parameter/expectation_maximization.py:ExpectationMaximization._get_obs_counts", "bcause/learning/parameter/expectation_maximization.py:ExpectationMaximization._process_data", "bcause/util/datadeps.py:DataDepAnalysis.get_minimal_obs_blanket", "bcause/models/transform/simplification.py:minimalize", "bcause/inference/probabilistic/elimination.py:VariableElimination.run"]}
{"id": "C98", "title": "Answers from sampled records approach the probabilities of the model", "statement": "For records sampled from a model with independent uniform draws, the answer of inference from these records differs from the conditional probability in the model by epsilon or more, or does not exist, with a probability that is at most a constant over n; hence it tends to zero, for every target and all evidence of positive probability. Without evidence there is always an answer, its expected value is the marginal probability, and the bound is p(1-p)/(n epsilon^2). There is no answer with probability (1-q)^n for evidence of probability q.", "quantifier": "for all networks, targets, evidence of positive probability, states, numbers of records and tolerances, over all draws of the generator", "why_tests_cant": "Tests compare the answers with counts of one sampled frame; the statement is a limit over the number of records and a measure over all draws.", "anchors": ["bcause/inference/probabilistic/datainference.py:LaplaceInference.run", "bcause/inference/probabilistic/datainference.py:LaplaceInference.compile", "bcause/util/datautils.py:to_counts", "bcause/util/datautils.py:filter_data", "bcause/models/sampling.py:forward_sampling", "bcause/models/pgmodel.py:DiscreteDAGModel.sample"]}
{"id": "C99", "title": "Expectation maximisation stops where the likelihood is greatest", "statement": "When expectation maximisation has converged for the variables it learns, no other tables of these variables give the records a greater likelihood. In each step, a table stays as it is exactly when no other distribution with the same zeros has a greater likelihood, the other tables being given.", "quantifier": "for all networks, records, orders, numbers of iterations and reachable states of the learner", "why_tests_cant": "Tests compare a learnt table with expected values; that no other table is better is a statement about all tables.", "anchors": ["bcause/learning/parameter/expectation_maximization.py:ExpectationMaximization._stop_learning", "bcause/learning/parameter/expectation_maximization.py:ExpectationMaximization._maximization", "bcause/learning/parameter/expectation_maximization.py:ExpectationMaximization._expectation", "bcause/learning/parameter/parameter.py:IterativeParameterLearning.run"]}
{"id": "C100", "title": "Nodes are reported as separated exactly when no network with the graph lets them depend", "statement": "For disjoint sets of nodes the separation that the library computes holds exactly when the sets are independent in every network with the graph. Hence a node outside the result of dsep_nodes matters: some model with this graph, which the constructors accept, gives the targets another posterior when the node is observed as well. A set separates a node from all other nodes in every network exactly when it contains the Markov blanket of the node.", "quantifier": "for all acyclic graphs, disjoint sets of targets, nodes and evidence, store types, elimination orders and inference objects", "why_tests_cant": "Tests compare the reported nodes with expected sets for a few graphs; the statement is about all networks with a graph.", "anchors": ["bcause/util/graphutils.py:dsep_nodes", "bcause/util/graphutils.py:dcon_nodes", "bcause/util/graphutils.py:markov_blanket", "bcause/models/pgmodel.py:DiscreteDAGModel.markov_blanket", "bcause/inference/probabilistic/elimination.py:VariableElimination.run"]}
{"id": "C101", "title": "Canonical equations lose nothing", "statement": "For every structural causal model in which each endogenous variable has an exogenous parent of its own, canonical_deterministic gives equations such that, with suitable distributions of the exogenous variables, the model built from them answers every interventional and counterfactual query on the endogenous variables, and all probabilities of causation, as the given model.", "quantifier": "for all causal models, names and numbers of states, orders of the domains, queries with any number of worlds, elimination orders and store types", "why_tests_cant": "Tests build one canonical factor and compare its table; that no answer of any model is lost is a statement on all models and all exogenous distributions.", "anchors": ["bcause/factors/deterministic.py:canonical_deterministic", "bcause/models/cmodel.py:StructuralCausalModel.__init__", "bcause/inference/causal/elimination.py:CausalVariableElimination", "bcause/inference/causal/causal.py:CausalInference.prob_necessity_sufficiency"]}
{"id": "C102", "title": "Canonical equations attain the greatest likelihood", "statement": "For every causal graph in which each endogenous variable has an exogenous parent of its own, and every network over its endogenous part, some model with the equations of canonical_deterministic has the observational distribution and all the effects of interventions of that network. Hence, for every complete data set, some model with canonical equations has the log-likelihood that max_log_likelihood reports, so that the bound is attained.", "quantifier": "for all causal graphs, names and numbers of states, networks over the endogenous variables, non-empty complete data sets, topological orders, elimination orders and store types", "why_tests_cant": "Tests compare both numbers for one model and one data set; that the reported maximum is a maximum and not only a bound is a statement on all models.", "anchors": ["bcause/factors/deterministic.py:canonical_deterministic", "bcause/models/cmodel.py:StructuralCausalModel.log_likelihood", "bcause/models/cmodel.py:StructuralCausalModel.max_log_likelihood", "bcause/models/cmodel.py:StructuralCausalModel.get_qgraph"]}
{"id": "C103", "title": "Effects of variables that share no unobserved cause with their children are determined by observations", "statement": "Call two endogenous variables connected when they are in the same component, that is when a chain of shared exogenous parents leads from one to the other. If none of the variables that are imposed is connected to a child of it that is not imposed, then two models with the same graph and the same states of the endogenous variables, whatever their equations, exogenous states and distributions, that give the same positive probabilities to the endogenous values, answer every causal query about this intervention, with or without evidence, in the same way. The answer is a formula of the observed probabilities: in each component the probabilities of the variables given all earlier ones are multiplied and summed over the imposed variables. When models are learnt from compatible data with GDCC, the low and the up bound are both that formula of the relative frequencies, whatever the number of models and the random start.", "quantifier": "for all pairs of models of a graph, interventions, targets, evidence, store types, elimination orders, data sets, numbers of learnt models and random numbers", "why_tests_cant": "Tests compute bounds for one model and see two close floating point numbers; that they must be equal, for which graphs, and to what, is a theorem about all models.", "anchors": ["bcause/inference/causal/causal.py:CausalInference.causal_query", "bcause/inference/causal/multi.py:GDCC.compile", "bcause/inference/causal/multi.py:CausalMultiInference.query", "bcause/models/cmodel.py:DiscreteCausalDAGModel.endo_ccomponents"]}
{"id": "C104", "title": "Effects of variables that share an unobserved cause with a child are not determined by observations", "statement": "The condition of C103 is exact for interventions on one variable: the answers to the causal queries with an imposed state of the endogenous variable x are determined by the graph and the positive distribution of the endogenous variables if and only if x is not connected with a child by a chain of shared exogenous variables. If it is connected, there are two causal models with this graph, accepted by the constructors, with the same endogenous variables and the same positive distribution of them, and a causal query on x to which the library answers differently.", "quantifier": "for all acyclic graphs, endogenous variables, store types, elimination orders and settings of cast_multinomial and check_factors", "why_tests_cant": "Tests can show that a query is not identified for one pair of models; for which graphs such a pair exists, that is when a gap between the bounds of GDCC or EMCC is not a defect, is a statement about all graphs.", "anchors": ["bcause/inference/causal/causal.py:CausalInference.causal_query", "bcause/models/cmodel.py:StructuralCausalModel.__init__", "bcause/models/cmodel.py:DiscreteCausalDAGModel.endo_ccomponents"]}
{"id": "C105", "title": "Renaming the variables of a model renames the answers of its queries", "statement": "For a renaming that is injective on the variables of the model, the renamed model gives to a query in the new names the answer that the model gives to the query in the old names: the answer has the renamed variables and the same value in every state of them. This holds for conditional queries of networks, for causal queries with interventions and evidence, and for counterfactual queries over several worlds.", "quantifier": "for all networks and causal models, injective renamings (also ones that exchange names), targets, evidence, interventions, store types and pairs of elimination orders", "why_tests_cant": "A metamorphic property: a test checks it for one model and one renaming; that names occur nowhere but as names, in particular not in the names that counterfactual queries make up, is a statement about all of them.", "anchors": ["bcause/models/pgmodel.py:DiscreteDAGModel.rename_vars", "bcause/models/cmodel.py:StructuralCausalModel.rename_vars", "bcause/inference/probabilistic/elimination.py:VariableElimination.query", "bcause/inference/causal/causal.py:CausalInference.causal_query", "bcause/inference/causal/causal.py:CausalInference.counterfactual_query"]}
{"id": "C106", "title": "Domains made up from numbers of states have these states, and when their true and false states are recognised", "statement": "create_domain gives every variable, in the given order, as many different states as asked for, numbered from the given first number. Of a variable with two states identify_true_false finds the true and the false state exactly if the numbers start at zero, or the states are strings and the numbers start at one (the default); the true state is the one with number one. All other made-up domains are refused by identify_true_false. Without variables create_domain raises an IndexError.", "quantifier": "for all names, sizes (also negative), first numbers and both kinds of states", "why_tests_cant": "The two functions have to agree on a naming convention for all names and numbers; the tests use domains written out by hand.", "anchors": ["bcause/util/domainutils.py:create_domain", "bcause/util/domainutils.py:identify_true_false"]}
{"id": "C107", "title": "Changing between column-major and row-major order moves every cell to its place", "statement": "change_shape_order takes the value at the column-major position of a cell to the row-major position of the same cell, for every cell of the shape, so that it loses and repeats nothing; applied to the result with the dimensions reversed it gives the values back. It is refused, with a ValueError, exactly if the number of values is not the number of cells.", "quantifier": "for all lists of values, shapes (of any number of dimensions, also with empty ones) and cells", "why_tests_cant": "Positions in several dimensions are wrong only for shapes that a test does not happen to use, for instance not square ones.", "anchors": ["bcause/util/arrayutils.py:change_shape_order"]}
{"id": "C108", "title": "The bounds on probabilities of causation cannot be improved", "statement": "For a cause and an effect with two states and an unobserved common parent, the values that prob_necessity_sufficiency returns for the causal models with given probabilities of observations and of the effect after imposing either state of the cause are exactly the numbers within the bounds of Tian and Pearl; the values of prob_necessity and prob_sufficiency are any pair within their own bounds. The models are built by the constructors, and their causal queries return the given probabilities.", "quantifier": "for all probabilities that some model can have, all numbers within the bounds, both value types, all choices of the inference engine and all names", "why_tests_cant": "That no tighter bound is correct is a statement on the existence of models for every number of an interval.", "anchors": ["bcause/inference/causal/causal.py:CausalInference.prob_necessity_sufficiency", "bcause/inference/causal/causal.py:CausalInference.prob_necessity", "bcause/inference/causal/causal.py:CausalInference.prob_sufficiency"]}
{"id": "C109", "title": "The exogenous sides of the components belong to their endogenous sides", "statement": "The exogenous sides of the c-components are disjoint and cover the exogenous variables with a child; the k-th exogenous side holds exactly the exogenous parents of the k-th endogenous side; get_exo_ccomponent returns it for each variable of the component; exogenous and endogenous parents (children) of a variable are its parents (children).", "quantifier": "for all directed graphs and all sets of endogenous variables", "why_tests_cant": "The correspondence of two lists built from sets is not visible on models with a single component.", "anchors": ["bcause/models/cmodel.py:DiscreteCausalDAGModel.exo_ccomponents", "bcause/models/info.py:get_exo_ccomponent", "bcause/models/cmodel.py:DiscreteCausalDAGModel.get_exogenous_parents", "bcause/models/cmodel.py:DiscreteCausalDAGModel.get_exogenous_children"]}
{"id": "C110", "title": "Numeric state spaces are the state spaces with positions for labels", "statement": "numeric_state_space lists every tuple of positions once, in the order of the cells of a table, and its n-th element names the labels of the n-th element of state_space; numeric_assignment_space adds the names; steps_dict gives the distances in the table.", "quantifier": "for all domains", "why_tests_cant": "Agreement of two enumerations has to hold for all shapes.", "anchors": ["bcause/util/domainutils.py:numeric_state_space", "bcause/util/domainutils.py:numeric_assignment_space", "bcause/util/domainutils.py:steps_dict"]}
{"id": "C111", "title": "Which domains factors accept", "statement": "_check_domain accepts a dictionary exactly if its keys are strings that do not begin with an underscore and its values are non-empty lists of states of one type; it raises ValueError otherwise. It accepts all domains that factor operations form from accepted ones.", "quantifier": "for all dictionaries with keys and states of any types", "why_tests_cant": "The inputs range over values of all Python types.", "anchors": ["bcause/factors/factor.py:DiscreteFactor._check_domain"]}
{"id": "C112", "title": "Changing a derived model does not change the model it was made from", "statement": "After copy, to_multinomial, intervention or rename_vars, setting factors of the new model, or changing its factors in place, leaves the old model as it was, and the other way round: a program that makes, copies, converts, intervenes, renames and changes models gives each of them the contents it would have if models shared nothing.", "quantifier": "for all programs, models and in-place changes", "why_tests_cant": "Whether two models share an object depends on how they were made; a test sees it only if it changes one and looks at the other.", "anchors": ["bcause/models/pgmodel.py:DiscreteDAGModel.copy", "bcause/models/pgmodel.py:PGModel.set_factor", "bcause/models/cmodel.py:StructuralCausalModel.intervention", "bcause/models/cmodel.py:StructuralCausalModel.to_multinomial", "bcause/models/cmodel.py:StructuralCausalModel.rename_vars", "bcause/factors/factor.py:DiscreteFactor.rename_vars"]}
{"id": "C113", "title": "A model can be queried and learnt whatever stores its tables are kept in", "statement": "The vtype of a factor only says how its table is kept: queries to a model give the posterior distributions, and a step of expectation maximisation the new tables, whatever the vtypes of the factors, also when they differ from one another or from the default vtype.", "quantifier": "for all networks, assignments of stores to tables, default stores, queries and data", "why_tests_cant": "The tests use one vtype at a time, mostly the default; which tables meet in an operation depends on the query.", "anchors": ["bcause/factors/mulitnomial.py:MultinomialFactor.builder", "bcause/factors/values/numpyops.py:NumpyStoreOperations", "bcause/factors/values/operations.py:GenericOperations", "bcause/inference/probabilistic/elimination.py:VariableElimination.run", "bcause/learning/parameter/expectation_maximization.py:ExpectationMaximization._expectation"]}
{"id": "C114", "title": "Answers to different queries of a model fit together", "statement": "Answers given by one model satisfy the rules of probability among themselves: the answer for T and U summed over U is the answer for T; it is the answer for U times the answer for T when the states of U are also observed; a conditional query agrees with the query that has the conditions as evidence; query(T|U)*query(U) summed over U is query(T), and query(T|U)*query(U)/query(T) is query(U|T); the order of targets and observations does not matter. The same holds for queries with imposed states.", "quantifier": "for all models, stores, elimination orders, disjoint sets of targets and evidence of non-zero probability", "why_tests_cant": "Each query builds its own pruned network and its own elimination order; agreement between queries can only be sampled.", "anchors": ["bcause/inference/probabilistic/elimination.py:VariableElimination.run", "bcause/inference/probabilistic/probabilistic.py:ProbabilisticInference.query", "bcause/inference/causal/causal.py:CausalInference.causal_query"]}
{"id": "C115", "title": "Printed forms say what they show", "statement": "Two tables (equations, interval factors) have the same printed form exactly when they have the same variables on both sides, the same numbers of states in the same order, and the same first four values, with the same last value when there are more; the name of a table is never that of an equation. Two networks have the same printed form exactly when their variables have the same numbers of states, known for the same ones, and their graphs have the same nodes and parents; two causal models when moreover the same variables are endogenous.", "quantifier": "for all factors and models, in any stores, whose names of variables have none of the separators used in the text, and any injective text of values without those separators", "why_tests_cant": "Whether two different objects can be confused by their text is a statement about all pairs of objects.", "anchors": ["bcause/factors/mulitnomial.py:MultinomialFactor.__repr__", "bcause/factors/deterministic.py:DeterministicFactor.__repr__", "bcause/factors/imprecise.py:IntervalProbFactor.__repr__", "bcause/factors/values/store.py:DiscreteStore.values_str", "bcause/models/bnet.py:BayesianNetwork.__repr__", "bcause/models/cmodel.py:StructuralCausalModel.__repr__"]}
{"id": "C116", "title": "Bounds from more models contain those from fewer", "statement": "The bounds of an interval result depend only on which answers there are, not on their order or repetition; the bounds of more models contain those of fewer, and adding models to an object never narrows the bounds of a query or the numbers read from it; the bounds of two groups together are the lesser and the greater of the bounds of the groups; conditioning the answers and then taking bounds gives the same as conditioning the bounds.", "quantifier": "for all lists of models or tables with finite values over the same variables and states, in any store, all queries they answer and all joint states", "why_tests_cant": "A statement about pairs of lists of models of any length; tests compare single runs with stored numbers.", "anchors": ["bcause/factors/imprecise.py:IntervalProbFactor.from_precise", "bcause/factors/imprecise.py:IntervalProbFactor.restrict", "bcause/inference/causal/multi.py:CausalMultiInference.query", "bcause/inference/causal/multi.py:CausalMultiInference.add_models"]}
{"id": "C117", "title": "Counterfactual answers obey the laws of potential outcomes", "statement": "Answers of different counterfactual queries of one causal model fit together. Only what is imposed in the world of a target matters, not the number of the world nor the order of the imposed states. That variables W have the states w and T the states t when d is imposed is as probable as that W have the states w when d is imposed and T the states t when d and W = w are imposed. Summing a target out of an answer gives the answer without it. With one world and no evidence the answer is the interventional one, and it is the average of the answers given each state of a variable, weighted with their probabilities.", "quantifier": "for all structural causal models, stores, elimination orders, evidence of non-zero probability, and all worlds and targets that are endogenous, whose imposed variables have a child not imposed in the same world, and whose copies have new names", "why_tests_cant": "Each query builds another fused network with other names, so the laws relate runs on different networks; tests compare single runs with stored numbers.", "anchors": ["bcause/inference/causal/causal.py:CausalInference.counterfactual_query", "bcause/inference/causal/causal.py:CausalInference.causal_query", "bcause/models/transform/combination.py:fusion_roots"]}
{"id": "C118", "title": "Operators between tables, equations, interval factors and numbers", "statement": "An operator between operands of different kinds either computes with the tables they stand for (an equation stands for its zero-one table, a number for a constant table) or is refused with an exception.", "quantifier": "for all tables, equations, interval factors and numbers, in any store, and all of the operators *, +, -, / and **", "why_tests_cant": "A statement about all pairs of kinds of operands; tests multiply tables only.", "anchors": ["bcause/factors/mulitnomial.py:MultinomialFactor.multiply", "bcause/factors/mulitnomial.py:MultinomialFactor.__rmul__", "bcause/factors/deterministic.py:DeterministicFactor.multiply", "bcause/factors/imprecise.py:IntervalProbFactor.multiply", "bcause/factors/factor.py:Factor.combine_all"]}
{"id": "C119", "title": "Variables may be given by name or in any container of names", "statement": "Every query and graph function that takes variables treats a name as the list of that name, and a list, set or dictionary view as the variables in it: the answer is that for the variables meant, in whatever form and order they are given.", "quantifier": "for all names, containers, networks, structural causal models, tables of records, evidence, interventions, stores and graphs", "why_tests_cant": "A statement about all ways of writing the same query; tests use one form per query, with names that are strings.", "anchors": ["bcause/util/arrayutils.py:as_lists", "bcause/inference/probabilistic/probabilistic.py:ProbabilisticInference.query", "bcause/inference/causal/causal.py:CausalInference.query", "bcause/inference/probabilistic/datainference.py:LaplaceInference.compile", "bcause/util/graphutils.py:dsep_nodes", "bcause/util/graphutils.py:dcon_nodes", "bcause/util/graphutils.py:connected"]}
{"id": "C120", "title": "The stop watch measures from the last start", "statement": "Reading or stopping the watch gives the milliseconds since it was last started; reading does not stop it; a watch that was never started, or has been stopped, cannot be read or stopped. There is one watch for all users.", "quantifier": "for all sequences of calls of start, stop, stop_print and get_time, and all readings of the clock", "why_tests_cant": "A statement about all sequences of calls.", "anchors": ["bcause/util/watch.py:Watch.start", "bcause/util/watch.py:Watch.stop", "bcause/util/watch.py:Watch.stop_print", "bcause/util/watch.py:Watch.get_time"]}
{"id": "C121", "title": "Colours are written as two hexadecimal digits for each byte", "statement": "A colour with components between 0 and 1 is written as a number sign and the two hexadecimal digits of the byte of each component, so that colours have the same text exactly if their bytes are the same; the colours of a list of n are those of the colour map at n equally spaced points.", "quantifier": "for all components between 0 and 1, all numbers of colours and all colour maps", "why_tests_cant": "A statement about all colours and colour maps.", "anchors": ["bcause/util/plotutils.py:rgb_to_hex", "bcause/util/plotutils.py:get_linear_colors"]}
{"id": "C122", "title": "A drawing shows every variable and every edge once", "statement": "The drawing of a causal model has each variable once, in the colour of its kind and with its name in a different colour, and each edge once, dashed exactly if it starts at an exogenous variable; if some variable has no position the drawing is refused.", "quantifier": "for all structural causal models and positions", "why_tests_cant": "A statement about all graphs; drawings are not tested.", "anchors": ["bcause/models/cmodel.py:StructuralCausalModel.draw"]}
