#!/usr/bin/env python3
"""Writes /verif/properties.jsonl (one JSON object per property)."""
import json, os
P = []
def p(id, title, statement, quantifier, why, anchors):
    P.append(dict(id=id, title=title, statement=statement, quantifier=quantifier, why_tests_cant=why, anchors=anchors))

ST = "bcause/factors/values/"
p("C01", "Product of factors is the pointwise product on the union of the scopes",
  "For every store type (numpy, numpy1d, list, treedict): f*g has as variables those of f followed by the new ones of g, and for every observation assigning a state to every variable of the union, (f*g).get_value(obs) == f.get_value(obs) * g.get_value(obs).",
  "all store types, all pairs of factors (any number of variables, any cardinalities, any variable order, shared variables having the same state list), all full observations",
  "Scopes, orders and cardinalities are unbounded; the implementation goes through axis extension, axis permutation, flat index arithmetic or trees, each of which can be wrong for one particular layout only.",
  [ST+"numpyops.py:NumpyStoreOperations._generic_combine", ST+"listops.py:ListStoreOperations._generic_combine", ST+"operations.py:GenericOperations._generic_combine", ST+"treedictops.py:TreeDictStoreOperations._combine_dict", "bcause/factors/mulitnomial.py:MultinomialFactor.multiply"])
p("C02", "Combination pairs values by state label, not by state position",
  "When two factors share a variable but list its states in a different order (which the library accepts when building a model), f*g still multiplies values belonging to the same state label.",
  "all pairs of factors whose shared variables have the same set of states in any order",
  "The state orders range over all permutations; a test fixes one order.",
  [ST+"numpyops.py:NumpyStoreOperations._generic_combine", ST+"listops.py:ListStoreOperations._generic_combine", "bcause/models/pgmodel.py:PGModel.set_factor"])
p("C03", "Addition, subtraction and scalar operands are pointwise",
  "f+g and f-g are pointwise on the union of the scopes, and combining with an int or float c combines every cell with c, leaving the scope and the left/right split unchanged.",
  "all store types, all pairs of compatible factors, all scalars, all full observations",
  "Unbounded scopes and values.",
  ["bcause/factors/mulitnomial.py:MultinomialFactor.addition/subtract/_prepare_operand", ST+"operations.py", ST+"listops.py", ST+"numpyops.py", ST+"treedictops.py"])
p("C04", "Division is pointwise and 0/0 is 0 in the default store",
  "For every full observation, (f/g).get_value(obs) is the quotient of the two values when the divisor is non-zero; in the default (numpy) store 0/0 gives exactly 0, so dividing a joint by its own marginal never produces NaN.",
  "all store types, all pairs of compatible factors, all full observations",
  "The zero pattern of the divisor ranges over all subsets of cells.",
  [ST+"numpyops.py:NumpyStoreOperations.divide", "bcause/factors/mulitnomial.py:MultinomialFactor.divide"])
p("C05", "Marginalisation sums exactly the removed variables",
  "f**vars has as variables those of f not removed (same order), and its value at any observation of them is the sum of f over all joint states of the removed variables; removing only variables that f does not have returns f itself.",
  "all store types, all factors, all subsets of its variables in any order, all full observations of the rest",
  "Axis arithmetic, lock-step iterators and tree folding must be right for every position and number of removed variables.",
  [ST+"numpyops.py:NumpyStoreOperations.marginalize", ST+"listops.py:ListStoreOperations.marginalize", ST+"operations.py:GenericOperations.marginalize", ST+"treedictops.py:TreeDictStoreOperations._marginalize_dict", "bcause/factors/mulitnomial.py:MultinomialFactor.marginalize"])
p("C06", "Max-marginalisation takes the maximum over exactly the removed variables",
  "For the stores that implement it (numpy, list, treedict), f^vars at an observation of the remaining variables is the maximum of f over all joint states of the removed ones; the numpy1d store refuses with NotImplementedError.",
  "all factors, all subsets of variables, all observations of the rest",
  "Same unbounded layouts as marginalisation.",
  [ST+"numpyops.py:NumpyStoreOperations.maxmarginalize", ST+"listops.py:ListStoreOperations.maxmarginalize", ST+"treedictops.py:TreeDictStoreOperations.maxmarginalize", ST+"operations.py:GenericOperations.maxmarginalize"])
p("C07", "Restriction conditions on the observed states and nothing else",
  "f.R(**obs) drops exactly the observed variables, and its value at any observation of the rest equals f's value at the combined observation; observed variables that are not in f are ignored; an observed state outside the domain raises.",
  "all store types, all factors, all scalar observations of any set of variables",
  "All positions and numbers of restricted variables.",
  [ST+"numpyops.py:NumpyStoreOperations.restrict", ST+"listops.py:ListStoreOperations.restrict", ST+"numpystore.py:Numpy1DStore.restrict", ST+"treedictops.py:TreeDictStoreOperations._restrict_dict", "bcause/factors/mulitnomial.py:MultinomialFactor.restrict"])
p("C08", "Restriction to a set of states keeps labels and values together",
  "f.R(X=[s1,..,sk]) in the default store keeps X with exactly the listed states and every remaining cell keeps the value f had for the same labels, whatever the order in which the states are listed and whatever other variables are restricted in the same call.",
  "all factors, all lists of states, all combinations of list-valued and scalar restrictions",
  "Needs every order of the list and every combination of advanced and basic indices.",
  [ST+"numpyops.py:NumpyStoreOperations.restrict"])
p("C09", "The store type is not observable",
  "Evaluating any expression built from factor tables with product, sum, difference, marginalisation and restriction gives, for every store type, the same value at every full observation of the result's variables.",
  "all finite expressions (any depth) over well-formed factors with consistent domains, all pairs of store types, all observations",
  "Expressions are an infinite family; each store has its own data layout.",
  [ST+"__init__.py:store_dict", ST+"numpyops.py", ST+"listops.py", ST+"operations.py", ST+"treedictops.py"])
p("C10", "Reading back a written cell; no other cell changes",
  "After set_value(x, obs) with a full observation, get_value(obs) is x and get_value at every other full observation is unchanged.",
  "all store types, all well-formed stores, all sequences of writes, all full observations",
  "Histories of writes and cells are unbounded.",
  [ST+"numpystore.py:NumpyStore.set_value/get_value", ST+"liststore.py:ListStore.set_value", ST+"treedictstore.py:TreeDictStore.set_value"])
p("C11", "Row-major layout: flat index and joint state determine each other",
  "The k-th joint state enumerated by state_space has flat index k (index_list(domain, state) == [k]); partial observations yield exactly the flat indices of the joint states that agree with them, in increasing order.",
  "all domains, all partial observations",
  "Unbounded number of variables and cardinalities.",
  ["bcause/util/domainutils.py:state_space/steps/index_iterator/values_to_coord/restrict_domain"])
p("C12", "A factor returns the values it was built with",
  "A factor built from a flat list of values in row-major order (last variable fastest) returns that list as values_list for every store type, and a list whose length is not the product of the cardinalities is rejected.",
  "all store types, all domains, all value lists",
  "Unbounded sizes.",
  ["bcause/factors/mulitnomial.py:MultinomialFactor.__init__", ST+"store.py:DiscreteStore.values_list", ST+"treedictstore.py", "bcause/util/treesutil.py:build_default_tree"])
p("C13", "values_array transposes without losing labels",
  "f.values_array(order) at the coordinates of any joint state (in the requested variable order) equals f.get_value at that state.",
  "all factors, all permutations of their variables, all joint states",
  "All permutations.",
  ["bcause/factors/factor.py:DiscreteFactor.values_array"])
p("C14", "Renaming variables of a factor is a pure relabelling",
  "f.rename_vars(m), for m injective on the variables of f, has the renamed variables in the same order and the same left/right split, and its value at a renamed observation is f's value.",
  "all factors, all mappings injective on its variables",
  "All mappings and scopes.",
  ["bcause/factors/factor.py:DiscreteFactor.rename_vars"])
p("C15", "Left/right bookkeeping of conditional factors",
  "Whatever sequence of products, marginalisations and restrictions produced a factor from conditional tables P(X|pa), its left and right variables partition its variables, a product conditions on exactly the variables that are on the left of neither operand, and a factor with no left variables left after summing out whole tables of a DAG is identically one.",
  "all conditional factors and all operation sequences on them",
  "Sequences of operations are unbounded; variable elimination relies on it to discard factors.",
  ["bcause/factors/factor.py:ConditionalFactor", "bcause/factors/mulitnomial.py", "bcause/inference/probabilistic/elimination.py:VariableElimination.run"])
p("C16", "A structural equation becomes the degenerate table of its function",
  "DeterministicFactor.to_multinomial() has value 1 where the left state is the function's value and 0 elsewhere, hence every column sums to one; eval agrees with it.",
  "all deterministic factors over any domains",
  "Unbounded domains.",
  ["bcause/factors/deterministic.py:DeterministicFactor.to_multinomial/eval"])
p("C17", "to_deterministic and to_multinomial are inverse",
  "For a degenerate table P(X|pa), f.to_deterministic().to_multinomial() is the same table.",
  "all degenerate conditional tables over any state names",
  "State names are arbitrary; tests use 0..k-1.",
  ["bcause/factors/mulitnomial.py:MultinomialFactor.to_deterministic", "bcause/factors/deterministic.py:DeterministicFactor.to_multinomial"])
p("C18", "The constant mechanism puts all the mass on the given state",
  "f.constant(s) is a table over the single left variable with value 1 at s and 0 elsewhere, and a state outside the domain is rejected.",
  "all conditional factors with one left variable, all states",
  "Unbounded domains.",
  ["bcause/factors/mulitnomial.py:MultinomialFactor.constant", "bcause/factors/deterministic.py:DeterministicFactor.constant"])
p("C19", "The canonical equation enumerates every response function exactly once",
  "canonical_deterministic(domain, U, parents) gives an equation in which each state of U selects a different function from parent configurations to states of X, and every such function is selected by one state.",
  "all cardinalities, any number of endogenous parents",
  "The number of functions is exponential in the number of configurations.",
  ["bcause/factors/deterministic.py:canonical_deterministic", "bcause/factors/mulitnomial.py:canonical_multinomial"])
p("C20", "Random and uniform conditional tables are normalised",
  "For every configuration of the right variables the values produced by normalize_array (used by random_multinomial and uniform_multinomial) sum to one over the left variables, and are non-negative.",
  "all shapes, all choices of left axes, all arrays of draws with non-zero column sums",
  "All shapes and all outcomes of the generator.",
  ["bcause/util/arrayutils.py:normalize_array", "bcause/factors/mulitnomial.py:random_multinomial/uniform_multinomial"])
p("C21", "Barren nodes are exactly those without queried descendants",
  "barren_nodes(dag, S) returns exactly the nodes that are not in S and have no descendant in S, and barren_removal keeps the others with the edges among them.",
  "all DAGs, all S",
  "All graphs; the loop runs an unbounded number of rounds.",
  ["bcause/util/graphutils.py:_barren_info/barren_nodes/barren_removal"])
p("C22", "DAG string notation round-trips",
  "str2dag(dag2str(G)) has the same nodes and edges as G.",
  "all DAGs with names free of the characters [ ] | :",
  "All graphs and names.",
  ["bcause/util/graphutils.py:dag2str/str2dag", "bcause/models/pgmodel.py:DiscreteDAGModel.get_dag_str"])
p("C23", "Markov blanket is parents, children and co-parents",
  "model.markov_blanket(v) returns, without repetition, exactly the parents of v, the children of v and the other parents of its children.",
  "all DAGs, all nodes",
  "All graphs.",
  ["bcause/models/pgmodel.py:DiscreteDAGModel.markov_blanket", "bcause/util/graphutils.py:markov_blanket"])
p("C24", "Nodes reported d-separated really carry no information",
  "If dsep_nodes(dag, target, evidence) reports v, then in every network over that DAG observing v in addition to the evidence does not change the posterior of the target.",
  "all DAGs, all targets and evidence sets, all conditional tables with positive evidence probability",
  "Quantifies over all probability tables.",
  ["bcause/util/graphutils.py:dsep_nodes/dcon_nodes"])
p("C25", "Every built-in heuristic returns a complete elimination order",
  "min_fill, min_size and min_weight return each requested variable exactly once, always choosing a variable of minimal current cost, whatever the tie-breaking.",
  "all DAGs, all subsets to remove, all tie-breaking choices",
  "All graphs and all random outcomes.",
  ["bcause/inference/ordering.py:_get_elim_ordering"])
p("C26", "A model only accepts tables that match its graph",
  "With factor checking on, every table in a constructed model has exactly its node as left variable and exactly the node's parents as right variables; any other assignment raises ValueError and leaves the model unchanged.",
  "all DAGs, all sequences of set_factor calls",
  "Histories of calls are unbounded.",
  ["bcause/models/pgmodel.py:PGModel.set_factor", "bcause/models/pgmodel.py:DiscreteDAGModel._set_factors"])
p("C27", "A constructed model has consistent domains",
  "In a model whose construction succeeded, all tables mentioning a variable list the same states for it.",
  "all DAGs, all families of tables, all orders in which they are given",
  "The check is incremental: whether an inconsistency is caught may depend on the order in which tables are set.",
  ["bcause/models/pgmodel.py:PGModel.set_factor"])
p("C28", "Cyclic graphs are rejected",
  "Constructing a model over a directed graph succeeds exactly when the graph has no directed cycle.",
  "all directed graphs",
  "All graphs, cycles of any length.",
  ["bcause/models/pgmodel.py:DiscreteDAGModel._initialize"])
p("C29", "The joint distribution of a network sums to one",
  "For every network of normalised tables, prob() summed over all joint states is one, and the joint restricted to an ancestral set is the product of its tables.",
  "all DAGs, all normalised tables",
  "All networks.",
  ["bcause/models/pgmodel.py:PGModel.prob"])
p("C30", "Sampling only produces possible records",
  "Every record returned by model.sample assigns to each variable exactly one of its states and has positive joint probability, whatever the random generator returns; n samples are returned.",
  "all networks, all outcomes of the generator, all n",
  "Randomness; all histories of draws.",
  ["bcause/models/sampling.py:forward_sampling", "bcause/factors/mulitnomial.py:MultinomialFactor._sample/sample_conditional"])
p("C31", "Intervention is the truncated factorisation",
  "model.intervention(**do) has the graph without the edges into the intervened variables and its joint is the product of the tables of the other variables where the intervened variables have the given values, and zero elsewhere.",
  "all structural causal models, all interventions",
  "All models.",
  ["bcause/models/cmodel.py:StructuralCausalModel.intervention", "bcause/util/graphutils.py:remove_ingoing_edges"])
p("C32", "Interventions compose",
  "Interventions on disjoint sets of variables commute and equal the simultaneous intervention; repeating the same intervention changes nothing.",
  "all models, all pairs of interventions",
  "All models and interventions.",
  ["bcause/models/cmodel.py:StructuralCausalModel.intervention"])
p("C33", "Converting an SCM to multinomial tables or to a Bayesian network keeps its distribution and its variable roles",
  "to_multinomial() and to_bnet() keep graph, joint distribution and (to_multinomial) the endogenous/exogenous classification.",
  "all SCMs, including those whose endogenous list was given explicitly or that result from an intervention",
  "All models and histories of interventions.",
  ["bcause/models/cmodel.py:StructuralCausalModel.to_multinomial/to_bnet", "bcause/models/transform/conversion.py"])
p("C34", "Renaming the variables of a model is a pure relabelling",
  "model.rename_vars(m) for injective m has the renamed graph and its joint at a renamed assignment equals the original joint.",
  "all models, all injective mappings",
  "All models and mappings.",
  ["bcause/models/pgmodel.py:DiscreteDAGModel.rename_vars", "bcause/models/cmodel.py:StructuralCausalModel.rename_vars"])
p("C35", "Fusing worlds on their exogenous variables gives the twin-network joint",
  "The model built for a counterfactual query has one copy of the exogenous tables and, for the factual world and each hypothetical world, a copy of the endogenous tables (intervened, renamed); its joint is the product of them all.",
  "all SCMs, any number of hypothetical worlds",
  "All models and numbers of worlds.",
  ["bcause/models/transform/combination.py:fusion_roots", "bcause/inference/causal/causal.py:CausalInference._preprocess"])
p("C36", "Variable elimination returns the exact posterior",
  "VariableElimination(model).query(target, evidence) returns a factor over exactly the target variables whose value at each joint state is P(target, evidence)/P(evidence) computed from the full joint, whenever P(evidence)>0.",
  "all networks of normalised tables, all targets, all evidence with positive probability, all states",
  "All networks; the pruning, ordering and factor discarding are all value dependent on structure.",
  ["bcause/inference/probabilistic/elimination.py:VariableElimination.run", "bcause/inference/probabilistic/probabilistic.py:ProbabilisticInference.compile/query"])
p("C37", "The answer does not depend on the elimination heuristic",
  "Any two heuristics (built-in or user supplied) that return each variable to remove once give the same answer.",
  "all networks, all queries, all heuristics",
  "All orders.",
  ["bcause/inference/probabilistic/elimination.py:VariableElimination", "bcause/inference/ordering.py"])
p("C38", "Pruning irrelevant nodes does not change the query",
  "minimalize(model, target, evidence) keeps every target, and the posterior of the target computed from the pruned model equals that of the full model; the removed nodes are exactly the barren nodes and those disconnected from the target once edges out of evidence are cut.",
  "all networks, all targets and evidence",
  "All graphs.",
  ["bcause/models/transform/simplification.py:minimalize"])
p("C39", "Conditional queries return the conditional distribution",
  "query(target, conditioning=C, evidence=e) returns P(target|C,e): its value is P(t,c,e)/P(c,e) where that is defined and 0 where P(c,e)=0, and sums to one over the target for every possible configuration of C.",
  "all networks, all disjoint targets, conditioning and evidence",
  "All networks.",
  ["bcause/inference/probabilistic/probabilistic.py:ProbabilisticInference.query"])
p("C40", "Impossible evidence gives an all-zero answer, never NaN",
  "With the default store, a query whose evidence has probability zero in the pruned model returns a table of zeros.",
  "all networks, all impossible evidence",
  "All networks.",
  ["bcause/inference/probabilistic/elimination.py:VariableElimination.run", ST+"numpyops.py:NumpyStoreOperations.divide"])
p("C41", "Ill-formed queries are refused",
  "Repeated targets, targets that are also evidence (or conditioning) and unknown variables raise before any computation and leave the inference object's compiled state unchanged.",
  "all queries, all histories of previous queries",
  "All inputs and histories.",
  ["bcause/inference/probabilistic/probabilistic.py:ProbabilisticInference.compile", "bcause/util/assertions.py"])
p("C42", "Causal queries compute the interventional distribution",
  "causal_query(T, do, evidence) returns P(T | do, evidence) computed from the truncated factorisation.",
  "all SCMs, all interventions, targets, evidence with positive probability under the intervention",
  "All models.",
  ["bcause/inference/causal/causal.py:CausalInference.query/compile/_preprocess", "bcause/inference/causal/elimination.py"])
p("C43", "Counterfactual queries compute the counterfactual distribution",
  "counterfactual_query(T, do, evidence) returns sum_u P(u)[V(u) agrees with evidence][T_do(u)=t] / sum_u P(u)[V(u) agrees with evidence].",
  "all SCMs with degenerate endogenous tables, all interventions, targets, evidence with positive probability",
  "All models.",
  ["bcause/inference/causal/causal.py:CausalInference.counterfactual_query", "bcause/models/transform/combination.py:fusion_roots"])
p("C44", "Counterfactual queries succeed for every intervention on model variables",
  "A counterfactual query whose intervened, target and evidence variables all belong to the model, with positive-probability evidence, returns an answer rather than failing.",
  "all SCMs, all interventions including those on variables without children",
  "All graphs.",
  ["bcause/models/transform/combination.py:fusion_roots", "bcause/inference/causal/causal.py"])
p("C45", "Consistency: an intervention that agrees with the evidence changes nothing",
  "If the evidence contains X=x, the counterfactual answer for T under do(X=x) equals the ordinary posterior of T given the evidence.",
  "all SCMs, all evidence",
  "All models.",
  ["bcause/inference/causal/causal.py:CausalInference.counterfactual_query"])
p("C46", "Probabilities of causation",
  "prob_necessity, prob_sufficiency and prob_necessity_sufficiency return the corresponding counterfactual probabilities; they lie in [0,1] and satisfy PNS = P(x,y) PN + P(x',y') PS for binary cause and effect.",
  "all SCMs, all binary cause/effect pairs",
  "All models.",
  ["bcause/inference/causal/causal.py:CausalInference.prob_necessity/prob_sufficiency/prob_necessity_sufficiency"])
p("C47", "True/false states are identified independently of their order",
  "identify_true_false returns the two states of the domain, does not depend on the order in which they are listed, and refuses non-binary or mixed-type domains.",
  "all variable names, all domains",
  "All strings and domains.",
  ["bcause/util/domainutils.py:identify_true_false"])
p("C48", "Inference from data returns relative frequencies",
  "LaplaceInference.query(T, evidence) at t is (number of rows agreeing with t and the evidence)/(number of rows agreeing with the evidence), for complete data within the domains.",
  "all data sets, all queries with at least one matching row",
  "All data sets.",
  ["bcause/inference/probabilistic/datainference.py:LaplaceInference.run", "bcause/util/datautils.py:to_counts/filter_data"])
p("C49", "max_log_likelihood bounds log_likelihood",
  "For every data set, the log-likelihood obtained with the empirical conditional tables is at least the one obtained with any other tables over the same decomposition graph.",
  "all data sets, all graphs, all tables",
  "All tables: a continuum.",
  ["bcause/models/cmodel.py:StructuralCausalModel.log_likelihood/max_log_likelihood"])
p("C50", "Interval results are the tight envelope of the precise ones",
  "The interval returned by multi-model inference (from_precise, or [min,max] for scalars) contains the value of every precise model and both bounds are attained.",
  "all non-empty lists of models/factors, all states",
  "All numbers of models.",
  ["bcause/factors/imprecise.py:IntervalProbFactor.from_precise/restrict", "bcause/inference/causal/multi.py:CausalMultiInference._process_output"])
p("C51", "Multi-model inference always answers for the current models",
  "After any sequence of set_models, add_models, compile and query calls, a query aggregates over exactly the models currently set, and with no models it is refused.",
  "all histories of calls",
  "All call sequences.",
  ["bcause/inference/causal/multi.py:CausalMultiInference"])
p("C52", "Incremental compilation yields after every batch and stops at the requested number of runs",
  "compile_incremental(step) yields after adding each batch of step models, the number of models grows by step each time and the loop ends as soon as it reaches num_runs.",
  "all num_runs, all positive steps",
  "All values.",
  ["bcause/inference/causal/multi.py:EMCC.compile_incremental"])
p("C53", "Learning objects and learned models correspond",
  "After generating n models, learn_objects[i] is the run that produced models[i]; repeated runs accumulate; this must hold whatever the thread schedule in parallel mode.",
  "all numbers of models, all thread schedules",
  "Thread schedules.",
  ["bcause/learning/aggregator/aggregator.py:ModelAggregator.generate", "bcause/inference/causal/multi.py:GDCC.get_model_evolution"])
p("C54", "The learning loop performs at most max_iter steps and records each of them",
  "run(data, max_iter) performs between min(1,max_iter) and max_iter steps, stops at the first step after which the stopping rule holds, and model_evolution is the prior followed by the model after every step.",
  "all stopping rules, all max_iter, all update functions",
  "All histories.",
  ["bcause/learning/parameter/parameter.py:IterativeParameterLearning.run/step/_update_model"])
p("C55", "Running EM again learns again",
  "A second call of run on the same EM object learns from the new data in the same way as a fresh object would.",
  "all histories of runs",
  "Histories.",
  ["bcause/learning/parameter/expectation_maximization.py:ExpectationMaximization", "bcause/learning/parameter/parameter.py"])
p("C56", "EM only changes trainable variables and keeps tables normalised",
  "After any number of EM steps every non-trainable table is unchanged and every re-estimated exogenous table is non-negative and sums to one.",
  "all models, data sets, numbers of steps",
  "All histories.",
  ["bcause/learning/parameter/expectation_maximization.py:ExpectationMaximization._maximization", "bcause/learning/parameter/parameter.py:_update_model"])
p("C57", "Expected counts count each record once",
  "The weights with which EM uses the distinct observations add up to the number of records.",
  "all data sets, including those with missing values",
  "All missingness patterns.",
  ["bcause/learning/parameter/expectation_maximization.py:ExpectationMaximization._get_obs_counts", "bcause/util/datadeps.py:DataDepAnalysis"])
p("C58", "An EM step never decreases the likelihood",
  "The likelihood of the data under the exogenous distribution after an EM step is at least the one before it.",
  "all models with degenerate equations, all data with positive probability",
  "A continuum of parameters.",
  ["bcause/learning/parameter/expectation_maximization.py"])
p("C59", "Expected counts respect observed parents",
  "When a trainable variable has observed parents, a record only contributes to the counts of its own parent configuration.",
  "all models, all records",
  "All models.",
  ["bcause/learning/parameter/expectation_maximization.py:ExpectationMaximization._expectation"])
p("C60", "Distinct observations are kept once, in order",
  "The list of distinct observation patterns contains every pattern of the data exactly once, keeping the first occurrence.",
  "all data sets",
  "All lists.",
  ["bcause/util/datadeps.py:DataDepAnalysis.__obs_unique"])
p("C61", "The gradient objective is the negative log-likelihood of the component",
  "negative_log_likelihood(theta) equals minus the sum over records of log sum_u theta_u [equations give the record at u], and is infinite exactly when some observed record is impossible.",
  "all data, all theta, all models in which each endogenous child has one exogenous parent",
  "A continuum of parameters.",
  ["bcause/learning/parameter/gradient.py:GradientLikelihood._compute_N_and_P/_compute_P/negative_log_likelihood"])
p("C62", "Asking for the domains of a variable returns that variable's domain only",
  "get_domains(v) with a single variable name returns exactly the domain of v.",
  "all models and names",
  "All names: the code tests substring membership.",
  ["bcause/models/pgmodel.py:DiscreteDAGModel.get_domains", "bcause/learning/parameter/gradient.py:_updated_factor"])
p("C63", "UAI save/read round-trips a Bayesian network",
  "Writing a network in UAI format and reading it back gives, up to the canonical renaming, the same graph and the same tables.",
  "all networks",
  "All graphs (isolated nodes, more than ten nodes) and all values (small probabilities).",
  ["bcause/readwrite/bnwrite.py:to_uai", "bcause/readwrite/bnread.py:from_uai"])
p("C64", "UAI save/read round-trips a structural causal model",
  "Writing an SCM in UAI format and reading it back gives, up to renaming, the same graph, exogenous tables and equations.",
  "all SCMs",
  "All graphs and domains.",
  ["bcause/readwrite/scmwrite.py:to_uai", "bcause/readwrite/scmread.py:from_uai", "bcause/readwrite/bnwrite.py:to_uai"])
p("C65", "Export to pgmpy passes the right table",
  "The 2-D table handed over for P(X|pa) has in row i, column j the value of P(X = i-th state | j-th parent configuration).",
  "all conditional tables, any number of parents and cardinalities",
  "All shapes.",
  ["bcause/conversion/pgmpy.py:toTabularCPT"])
p("C66", "C-components partition the endogenous variables",
  "endo_ccomponents are pairwise disjoint and cover every endogenous variable that has an exogenous parent; two endogenous children of the same exogenous variable are in the same component.",
  "all SCMs",
  "All graphs.",
  ["bcause/models/cmodel.py:DiscreteCausalDAGModel.ccomponents/endo_ccomponents/exo_graph", "bcause/models/info.py"])
p("C67", "The decomposition graph is a DAG",
  "qgraph contains the endogenous graph and is acyclic, so that the quasi-network needed for the likelihood can be built.",
  "all SCMs",
  "All graphs.",
  ["bcause/models/info.py:get_qgraph", "bcause/models/cmodel.py:StructuralCausalModel.get_qbnet"])
p("C68", "The binary-tree store represents its table",
  "Looking up any joint state in the tree built from a non-negative table returns the table's value.",
  "all non-negative tables",
  "All tables.",
  ["bcause/factors/values/btreestore.py:BTreeStore._build_from_table/_best_split_point", "bcause/factors/values/btreestore.py:BTreeNode"])
p("C69", "Derived factors do not share mutable data with their source",
  "Writing into a factor obtained by restriction never changes the factor it was obtained from.",
  "all stores, all histories of restrictions and writes",
  "Histories and aliasing.",
  ["bcause/factors/values/treedictops.py:TreeDictStoreOperations._restrict_dict", "bcause/factors/values/treedictstore.py:TreeDictStore.set_value"])
p("C70", "powerset enumerates every subset once",
  "powerset(xs) has 2^n elements, each a sub-sequence of xs, all different when the elements are.",
  "all finite sequences",
  "All lengths.",
  ["bcause/util/arrayutils.py:powerset"])
exec(open(os.path.join(os.path.dirname(__file__), "props_more.py")).read()) if os.path.exists(os.path.join(os.path.dirname(__file__), "props_more.py")) else None
with open(os.path.join(os.path.dirname(__file__), "..", "properties.jsonl"), "w") as f:
    for x in P: f.write(json.dumps(x) + "\n")
print(len(P))
