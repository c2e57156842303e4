# Properties added as the model grew
p("C71", "Reading with an incomplete observation",
  "get_value with some variables unobserved: what it returns does not depend on the representation of the factor.",
  "all factors, all observations of some of their variables, all representations",
  "All tables and observations.",
  ["bcause/factors/values/numpystore.py:NumpyStore.get_value", "bcause/factors/values/liststore.py:ListStore.get_value", "bcause/factors/values/treedictstore.py:TreeDictStore.get_value"])
p("C72", "Markov blankets with hidden variables separate",
  "Given the observed variables in markov_blanket(dag, v, hidden), the other observed variables are independent of v; when nothing is hidden the result is the set of parents, children and other parents of children.",
  "all acyclic graphs, all networks over them, all sets of hidden variables",
  "All graphs and distributions.",
  ["bcause/util/graphutils.py:markov_blanket", "bcause/util/graphutils.py:dcon_nodes"])
p("C73", "Dropping separated observations changes no posterior",
  "The minimal observations that get_minimal_obs_blanket makes of a record give the same distribution of the target as the whole record.",
  "all networks, all records of positive probability, all targets not observed in them",
  "All networks and records.",
  ["bcause/util/datadeps.py:DataDepAnalysis.get_minimal_obs_blanket"])
p("C75", "Conversion to pgmpy and back keeps a network",
  "toPgmpyBNet followed by toBCauseBNet gives a network with the same variables, parents, states and tables.",
  "all networks, all representations of their factors",
  "All networks and tables.",
  ["bcause/conversion/pgmpy.py:toBCauseBNet", "bcause/conversion/pgmpy.py:toPgmpyBNet", "bcause/conversion/pgmpy.py:toMultinomialFactor", "bcause/conversion/pgmpy.py:toTabularCPT"])
p("C74", "The submodel on an ancestral set is the marginal",
  "submodel(nodes), for nodes that contain all their parents, returns a network on these nodes with the marginal distribution of the whole network.",
  "all networks, all sets of nodes closed under parents",
  "All networks and sets.",
  ["bcause/models/pgmodel.py:DiscreteDAGModel.submodel", "bcause/models/bnet.py:BayesianNetwork.builder"])
p("C76", "The binary tree splits where most is gained",
  "_best_split_point returns a variable and a split of its states whose information is at least that of every other split.",
  "all non-negative tables with different entries",
  "A continuum of tables.",
  ["bcause/factors/values/btreestore.py:BTreeStore._best_split_point"])
p("C77", "log_likelihood is the log-probability of the records",
  "For a model whose exogenous variables have no endogenous parents, whose endogenous variables each have an exogenous parent and whose decomposition graph is acyclic, log_likelihood(data) is the sum over the records of the logarithm of the probability of their endogenous values: the conditional distributions given the parents in the decomposition graph multiply to the distribution of the endogenous variables.",
  "all models, all complete data frames, all topological orders and all orders of python's sets",
  "All graphs and distributions; the factorisation is a theorem on d-separation, not a computation.",
  ["bcause/models/cmodel.py:StructuralCausalModel.log_likelihood", "bcause/models/cmodel.py:StructuralCausalModel.get_qbnet", "bcause/models/info.py:get_qgraph", "bcause/models/info.py:get_qfactors"])
p("C78", "The factors of a component are an interventional distribution",
  "The tables that get_qfactors returns for a component multiply to the probability of the values of the component when the values of all the other endogenous variables are imposed.",
  "all models as in C77, all components, all values of positive probability",
  "All graphs and distributions.",
  ["bcause/models/info.py:get_qfactors", "bcause/models/cmodel.py:StructuralCausalModel.get_qfactorisation", "bcause/models/info.py:get_qgraph"])
p("C79", "Arithmetic expressions over factors compute the same arithmetic on their cells",
  "An expression built from factors and numbers with *, +, -, /, ** (sum out) and R (restrict) evaluates to a factor over the variables of the expression, in order of appearance; each of its cells is the value of the same expression on the cells of the factors, and its left variables are those the expression implies. In particular a factor without the summed variables can be taken out of a sum. Numbers may stand on either side of an operator.",
  "for every expression tree, every family of factors, every store type and every joint states",
  "Tests multiply two or three given tables; nesting, scalars, order of variables and left/right bookkeeping interact in infinitely many expressions.",
  ["bcause/factors/mulitnomial.py:MultinomialFactor.__mul__", "bcause/factors/mulitnomial.py:MultinomialFactor.__rmul__", "bcause/factors/mulitnomial.py:MultinomialFactor.__pow__", "bcause/factors/mulitnomial.py:MultinomialFactor._prepare_operand"])
p("C80", "Models filled at random are proper models",
  "Whatever the generator returns, fill_random_factors turns a causal model whose exogenous variables are roots into one with zero-one equations and normalised marginals over the given states; randomize_factors gives new conditional tables to non-endogenous variables, in place or in a copy, and keeps the rest; BayesianNetwork.randomize_factors gives a normalised network. Endogenous variables, unknown states and changed states are refused.",
  "for every acyclic graph, all domains, every outcome of the generator with a non-zero number in each column, every store type",
  "The outcome of the generator ranges over a continuum; a test sees one seed.",
  ["bcause/models/cmodel.py:StructuralCausalModel.fill_random_factors", "bcause/models/cmodel.py:StructuralCausalModel.randomize_factors", "bcause/models/bnet.py:BayesianNetwork.randomize_factors", "bcause/factors/mulitnomial.py:random_deterministic"])
p("C81", "EMCC: from the records to the bounds of a causal query",
  "EMCC draws the exogenous distributions at random, fits them to the records by expectation maximisation on the causal model, and repeats this. Whatever is drawn, when the records can be produced by the equations and observe no exogenous variable, every run succeeds; each fitted model has the graph, the states and the equations of the given model and normalised non-negative exogenous distributions; the probability of the records under it is at least that under the drawn model. The answer to an interventional query is an interval factor whose bounds at each state are the least and the greatest of the interventional probabilities in the fitted models.",
  "for all causal models with exogenous roots, all records, all draws, numbers of models and of iterations, all stopping rules, interventions and targets",
  "Continuum of draws and models; the property joins random generation, learning, variable elimination and interval factors.",
  ["bcause/inference/causal/multi.py:EMCC.compile", "bcause/inference/causal/multi.py:CausalMultiInference.query", "bcause/learning/aggregator/aggregator.py:SimpleModelAggregatorEM", "bcause/learning/parameter/expectation_maximization.py:ExpectationMaximization", "bcause/models/cmodel.py:StructuralCausalModel.randomize_factors"])
p("C82", "Counterfactual bounds from several models",
  "A counterfactual query, prob_necessity, prob_sufficiency or prob_necessity_sufficiency put to a CausalMultiInference object returns the least and the greatest of the values that its current models give, or all of them in the order of the models when no interval is asked for. For EMCC the models are the fitted ones, and the bounds lie between zero and one; the probability of necessity is defined as soon as one record has the cause and the effect. True and false states that are not given are those of the current models.",
  "for all non-empty lists of causal models with the same states of the effect, all causes and effects, compiled or not, all draws and records",
  "Joins counterfactual inference in twin networks, learning with random starts, and interval factors; tests check one model against stored numbers.",
  ["bcause/inference/causal/multi.py:CausalMultiInference._process_output", "bcause/inference/causal/multi.py:CausalMultiInference.query", "bcause/inference/causal/causal.py:CausalInference.prob_necessity", "bcause/inference/causal/causal.py:CausalInference.prob_sufficiency", "bcause/inference/causal/causal.py:CausalInference.prob_necessity_sufficiency", "bcause/inference/causal/multi.py:EMCC.compile"])
p("C83", "Gradient learning: separate optimisation gives the likeliest model",
  "GradientLikelihood.run optimises each trainable exogenous variable on its own. Whatever the optimiser returns becomes the tables of a copy of the prior, the rest is kept, and further steps change nothing. If the optimiser finds for each variable a distribution with the least objective, then no causal model with the same equations, and other distributions of these variables, makes the records more likely; if it only does not increase the objectives, the records are at least as likely as under the prior. Endogenous variables and variables with values in the data are refused.",
  "for all causal models with exogenous roots in which no variable has two exogenous parents, all complete records, all optimisers, all numbers of iterations",
  "The optimiser and the distributions range over a continuum; that separate optima give a joint one is a theorem on the factorisation.",
  ["bcause/learning/parameter/gradient.py:GradientLikelihood.run", "bcause/learning/parameter/gradient.py:GradientLikelihood._process_data", "bcause/learning/parameter/gradient.py:GradientLikelihood._updated_factor", "bcause/learning/parameter/parameter.py:IterativeParameterLearning.step"])
p("C84", "GDCC: bounds over models of greatest likelihood",
  "When the optimiser finds least objectives, every model that SimpleModelAggregatorGD returns has the equations of the given model and greatest likelihood among the models with these equations; any two of them give each record the same probability, so that they differ only in what the records do not determine. The answers of GDCC to interventional queries and its probabilities of necessity and sufficiency are the least and the greatest of the values in these models.",
  "for all causal models as in C83, all records that the equations can produce, all draws, numbers of models, interventions and targets",
  "Continuum of draws and models; that maximisers agree on the records rests on strict concavity of the logarithm.",
  ["bcause/inference/causal/multi.py:GDCC.compile", "bcause/learning/aggregator/aggregator.py:SimpleModelAggregatorGD", "bcause/inference/causal/multi.py:CausalMultiInference.query", "bcause/learning/parameter/gradient.py:GradientLikelihood"])

p("C85", "Interventional and observational queries agree where the graph says so",
  "The answers of causal_query satisfy the rules of do-calculus with respect to the graphs of remove_ingoing_edges and remove_outgoing_edges and the separation of dsep_nodes: separated observations can be dropped, separated interventions can be replaced by observations, interventions from which neither target nor evidence is reached can be dropped. If the variables Z are not reached from X and separate X from the target in the graph without the edges out of X, then (P(T | X, Z).R(X=x) * P(Z)) ** Z, evaluated on factors returned by the observational queries, is the factor causal_query returns for do(X=x).",
  "for all structural causal models, targets, evidence, sets of imposed variables, elimination orders and stores for which the conditions have non-zero probability",
  "Relates two different computations over all models with a graph; a test compares one model and one query.",
  ["bcause/inference/causal/causal.py:CausalInference.causal_query", "bcause/util/graphutils.py:dsep_nodes", "bcause/util/graphutils.py:remove_outgoing_edges", "bcause/util/graphutils.py:remove_ingoing_edges", "bcause/inference/elimination/variableelimination.py:VariableElimination", "bcause/factors/mulitnomial.py:MultinomialFactor"])
p("C86", "An equation read from rows computes the rows",
  "DeterministicFactor.from_data_frame, given a frame in which every configuration of the other columns appears in one row, returns the equation of the left variable whose value at each configuration is the one in its row, whatever the order of rows and columns. A frame with the wrong number of rows is refused, and the frame of the caller is not altered when its cells are states.",
  "for all frames, domains, orders of rows and columns, left variables and stores",
  "All functions of any number of variables and all orders of the rows; the method has no tests and no callers in the repository.",
  ["bcause/factors/deterministic.py:DeterministicFactor.from_data_frame", "bcause/factors/deterministic.py:DeterministicFactor.__init__", "bcause/factors/factor.py:ConditionalFactor.set_variables", "bcause/util/domainutils.py:subdomain"])
p("C87", "Bounds coincide where adjustment identifies the query",
  "If some distributions of the exogenous variables make each record as probable as it is frequent, every model that GDCC learns has the frequencies of the records as its distribution of the endogenous variables. If further the variables Z are not reached from X and separate X from the target in the graph without the edges out of X, and every state of Z occurs in the records together with X=x, then both bounds of GDCC.causal_query for do(X=x) are the sum over z of #(t,x,z)/#(x,z) * #(z)/n, whatever the random starting points and the number of models.",
  "for all causal models as in C83, all complete records that some such model fits, all draws, numbers of models, targets and adjusting variables",
  "A statement on all models of greatest likelihood, a continuum, and on all data; a test compares one run with one number.",
  ["bcause/inference/causal/multi.py:GDCC.compile", "bcause/inference/causal/multi.py:CausalMultiInference.query", "bcause/inference/causal/causal.py:CausalInference.causal_query", "bcause/learning/parameter/gradient.py:GradientLikelihood.run", "bcause/util/graphutils.py:dsep_nodes"])
p("C88", "A saved model is the one that is read",
  "After any sequence of calls of save, whichever fail, read gives the model that was saved last in that file, under whatever name the file is given, and a save does not change what other files hold. A .uai file gives the same tables over V0, V1, ... and 0, 1, ...; a .bif or .xmlbif file keeps names and states, provided that pgmpy reads back what it wrote. A network is not read as a causal model nor the other way round from .uai files, and other endings are refused.",
  "for all models, paths, disks, sequences of calls, formats and stores",
  "Ranges over histories of calls and over all spellings of paths; the tests save one model and read it at once.",
  ["bcause/models/pgmodel.py:PGModel.save", "bcause/models/pgmodel.py:PGModel.read", "bcause/readwrite/bnwrite.py:to_uai", "bcause/readwrite/bnread.py:from_uai", "bcause/readwrite/scmwrite.py:to_bif", "bcause/readwrite/scmread.py:from_bif", "bcause/util/assertions.py:assert_file_exists"])
p("C89", "Answers respect the bounds given by observations and experiments",
  "P(t | do(d)) answered by causal_query lies between P(t, d) and P(t, d) + 1 - P(d). prob_necessity_sufficiency lies between P(te | do(tc)) + P(fe | do(fc)) - 1 and each of the two; for a cause and an effect with two states it lies within the bounds of Tian and Pearl, and so do prob_necessity and prob_sufficiency; if the cause never prevents the effect the values are differences of probabilities. The bounds of GDCC for interventions and for necessity and sufficiency lie within the same bounds with the frequencies of the records.",
  "for all structural causal models, causes, effects, interventions, orderings and stores; for GDCC all complete data that some model with the equations fits, all numbers of runs and all random draws",
  "Inequalities between answers to different queries on every model; the tests compare single numbers for two models.",
  ["bcause/inference/causal/causal.py:CausalInference.causal_query", "bcause/inference/causal/causal.py:CausalInference.prob_necessity_sufficiency", "bcause/inference/causal/causal.py:CausalInference.prob_necessity", "bcause/inference/causal/causal.py:CausalInference.prob_sufficiency", "bcause/inference/causal/multi.py:GDCC.compile"])
p("C90", "Which counterfactual queries are answered",
  "counterfactual_query returns an answer exactly when every intervened variable has parents and a child that is not intervened in the same world, and every target is a variable with parents of an existing world, not intervened there and not asked for twice; every other query raises, whatever the evidence. prob_necessity_sufficiency, prob_necessity and prob_sufficiency return a number exactly for two different variables with parents of which the cause has a child.",
  "for all structural causal models without variables named like copies, all lists of interventions with existing states, all non-empty lists of targets; answers need evidence of non-zero probability",
  "A statement about all graphs and all queries on them; the tests call the queries on two models for which they succeed.",
  ["bcause/inference/causal/causal.py:CausalInference.counterfactual_query", "bcause/inference/causal/causal.py:CausalInference._preprocess", "bcause/models/transform/combination.py:fusion_roots", "bcause/models/cmodel.py:StructuralCausalModel.set_factor"])
p("C91", "Effects through a mediator are determined by observations",
  "If M lies on all directed paths from X to the target, no path joins X and M in the graph without the edges out of X, and X separates M from the target in the graph without the edges out of M, then (P(M | X).R(X=x) * (P(T | M, X) * P(X)) ** X) ** M, evaluated on factors returned by observational queries, is the factor that causal_query returns for do(X=x). Both bounds of GDCC for this question are the same number, the formula with the frequencies of the records, although an unobserved variable may influence both X and the target.",
  "for all structural causal models in which the states of X and M have non-zero probability, all targets, elimination orders and stores; for GDCC all complete records that some model with the equations fits, all draws and numbers of models",
  "Relates different computations on all models with such a graph, including all models of greatest likelihood for the data.",
  ["bcause/inference/causal/causal.py:CausalInference.causal_query", "bcause/inference/causal/multi.py:GDCC.compile", "bcause/util/graphutils.py:remove_outgoing_edges", "bcause/inference/elimination/variableelimination.py:VariableElimination", "bcause/factors/mulitnomial.py:MultinomialFactor"])
p("C92", "Sampled records are independent and have the joint distribution",
  "For each record and node, DiscreteDAGModel.sample picks the state in whose cell the draw of the generator falls; the states of a node cut [0,1) into cells as long as their probabilities given the parents in the record. So the draws that give records r1, ..., rn are exactly a box, and for independent uniform draws the probability of these records is the product of their joint probabilities.",
  "for all networks, topological orders, numbers of records, records and draws in [0,1)",
  "A statement on a distribution over infinitely many draws; a test sees one pseudo-random sequence, and the repository only checks the number of rows.",
  ["bcause/models/sampling.py:forward_sampling", "bcause/models/pgmodel.py:DiscreteDAGModel.sample", "bcause/factors/mulitnomial.py:MultinomialFactor.sample", "bcause/factors/mulitnomial.py:MultinomialFactor.sample_conditional"])
p("C93", "Every network can be built and keeps its tables",
  "Given the tables of a Bayesian network as lists of values in row-major order of their domains, the constructors of factors and of the model accept them, in whatever order the variables of a table and the factors are listed, with or without checks, and the object has the graph of the network and returns its probabilities. An object represents one network only.",
  "for all networks, orders of variables in tables, orders of factors and stores",
  "All graphs, numbers of states and listings; tests build a handful of models in one order.",
  ["bcause/models/bnet.py:BayesianNetwork.__init__", "bcause/models/pgmodel.py:DiscreteDAGModel._set_factors", "bcause/models/pgmodel.py:PGModel.set_factor", "bcause/factors/mulitnomial.py:MultinomialFactor.__init__"])
p("C94", "Causal models and networks are converted into each other without loss",
  "causal_to_bnet turns every structural causal model, before or after interventions, into a network of multinomial tables with the same graph and distribution. bnet_to_causal accepts a network exactly when every variable with parents is a function of them, then keeps its graph, factors and distribution and makes the roots exogenous; otherwise it raises ValueError. The two are inverse to each other.",
  "for all models, networks and stores",
  "An equivalence over all models: tests convert one model and compare some numbers.",
  ["bcause/models/transform/conversion.py:causal_to_bnet", "bcause/models/transform/conversion.py:bnet_to_causal", "bcause/models/cmodel.py:StructuralCausalModel.set_factor", "bcause/models/cmodel.py:StructuralCausalModel.from_model"])
p("C95", "A model is rebuilt from the text of its graph and its factors",
  "get_dag_str followed by the constructor that accepts a text gives back a model with the same parents, states and tables; for causal models also with the same exogenous variables.",
  "for all models whose names contain none of the characters [ ] | :",
  "All graphs and names; the repository only builds models from texts in which every node has an arc.",
  ["bcause/models/pgmodel.py:DiscreteDAGModel.get_dag_str", "bcause/models/pgmodel.py:DiscreteDAGModel._initialize", "bcause/util/graphutils.py:str2dag", "bcause/models/cmodel.py:StructuralCausalModel.__init__"])
p("C96", "Sampling the endogenous variables gives independent records with their distribution",
  "For every structural causal model, sampleEndogenous returns n records of the endogenous variables, as a data frame or as a list; for independent uniform draws the probability of given records is the product of the probabilities that the model gives to them. Any columns of the sampled records have the marginal distribution of these variables.",
  "for all causal models, topological orders, numbers of records, records and draws in [0,1)",
  "A statement on a distribution over infinitely many draws and all models; tests draw one pseudo-random sample of models without deterministic factors.",
  ["bcause/models/cmodel.py:StructuralCausalModel.sampleEndogenous", "bcause/models/pgmodel.py:DiscreteDAGModel.sample", "bcause/models/sampling.py:forward_sampling", "bcause/factors/deterministic.py:DeterministicFactor.sample"])
p("C97", "Which records expectation maximisation can use",
  "For records that are possible, the expected counts are obtained exactly when in every record, for every variable that is still learnt, something of the variable and its parents is missing and something is observed that is not separated from the variable. In particular a run on data with one record that gives a variable to be learnt and its parents fails, and complete records without a list of variables change nothing.",
  "for all networks, data frames, lists of variables, states of the learning object, orders and stopping rules",
  "Tests learn exogenous variables that are never observed; the statement is on all patterns of missing values.",
  ["bcause/learning/parameter/expectation_maximization.py:ExpectationMaximization._expectation", "bcause/learning/parameter/expectation_maximization.py:ExpectationMaximization._get_obs_counts", "bcause/learning/parameter/expectation_maximization.py:ExpectationMaximization._process_data", "bcause/util/datadeps.py:DataDepAnalysis.get_minimal_obs_blanket", "bcause/models/transform/simplification.py:minimalize", "bcause/inference/probabilistic/elimination.py:VariableElimination.run"])
p("C98", "Answers from sampled records approach the probabilities of the model",
  "For records sampled from a model with independent uniform draws, the answer of inference from these records differs from the conditional probability in the model by epsilon or more, or does not exist, with a probability that is at most a constant over n; hence it tends to zero, for every target and all evidence of positive probability. Without evidence there is always an answer, its expected value is the marginal probability, and the bound is p(1-p)/(n epsilon^2). There is no answer with probability (1-q)^n for evidence of probability q.",
  "for all networks, targets, evidence of positive probability, states, numbers of records and tolerances, over all draws of the generator",
  "Tests compare the answers with counts of one sampled frame; the statement is a limit over the number of records and a measure over all draws.",
  ["bcause/inference/probabilistic/datainference.py:LaplaceInference.run", "bcause/inference/probabilistic/datainference.py:LaplaceInference.compile", "bcause/util/datautils.py:to_counts", "bcause/util/datautils.py:filter_data", "bcause/models/sampling.py:forward_sampling", "bcause/models/pgmodel.py:DiscreteDAGModel.sample"])
p("C99", "Expectation maximisation stops where the likelihood is greatest",
  "When expectation maximisation has converged for the variables it learns, no other tables of these variables give the records a greater likelihood. In each step, a table stays as it is exactly when no other distribution with the same zeros has a greater likelihood, the other tables being given.",
  "for all networks, records, orders, numbers of iterations and reachable states of the learner",
  "Tests compare a learnt table with expected values; that no other table is better is a statement about all tables.",
  ["bcause/learning/parameter/expectation_maximization.py:ExpectationMaximization._stop_learning", "bcause/learning/parameter/expectation_maximization.py:ExpectationMaximization._maximization", "bcause/learning/parameter/expectation_maximization.py:ExpectationMaximization._expectation", "bcause/learning/parameter/parameter.py:IterativeParameterLearning.run"])
p("C100", "Nodes are reported as separated exactly when no network with the graph lets them depend",
  "For disjoint sets of nodes the separation that the library computes holds exactly when the sets are independent in every network with the graph. Hence a node outside the result of dsep_nodes matters: some model with this graph, which the constructors accept, gives the targets another posterior when the node is observed as well. A set separates a node from all other nodes in every network exactly when it contains the Markov blanket of the node.",
  "for all acyclic graphs, disjoint sets of targets, nodes and evidence, store types, elimination orders and inference objects",
  "Tests compare the reported nodes with expected sets for a few graphs; the statement is about all networks with a graph.",
  ["bcause/util/graphutils.py:dsep_nodes", "bcause/util/graphutils.py:dcon_nodes", "bcause/util/graphutils.py:markov_blanket", "bcause/models/pgmodel.py:DiscreteDAGModel.markov_blanket", "bcause/inference/probabilistic/elimination.py:VariableElimination.run"])
p("C101", "Canonical equations lose nothing",
  "For every structural causal model in which each endogenous variable has an exogenous parent of its own, canonical_deterministic gives equations such that, with suitable distributions of the exogenous variables, the model built from them answers every interventional and counterfactual query on the endogenous variables, and all probabilities of causation, as the given model.",
  "for all causal models, names and numbers of states, orders of the domains, queries with any number of worlds, elimination orders and store types",
  "Tests build one canonical factor and compare its table; that no answer of any model is lost is a statement on all models and all exogenous distributions.",
  ["bcause/factors/deterministic.py:canonical_deterministic", "bcause/models/cmodel.py:StructuralCausalModel.__init__", "bcause/inference/causal/elimination.py:CausalVariableElimination", "bcause/inference/causal/causal.py:CausalInference.prob_necessity_sufficiency"])
p("C102", "Canonical equations attain the greatest likelihood",
  "For every causal graph in which each endogenous variable has an exogenous parent of its own, and every network over its endogenous part, some model with the equations of canonical_deterministic has the observational distribution and all the effects of interventions of that network. Hence, for every complete data set, some model with canonical equations has the log-likelihood that max_log_likelihood reports, so that the bound is attained.",
  "for all causal graphs, names and numbers of states, networks over the endogenous variables, non-empty complete data sets, topological orders, elimination orders and store types",
  "Tests compare both numbers for one model and one data set; that the reported maximum is a maximum and not only a bound is a statement on all models.",
  ["bcause/factors/deterministic.py:canonical_deterministic", "bcause/models/cmodel.py:StructuralCausalModel.log_likelihood", "bcause/models/cmodel.py:StructuralCausalModel.max_log_likelihood", "bcause/models/cmodel.py:StructuralCausalModel.get_qgraph"])
p("C103", "Effects of variables that share no unobserved cause with their children are determined by observations",
  "Call two endogenous variables connected when they are in the same component, that is when a chain of shared exogenous parents leads from one to the other. If none of the variables that are imposed is connected to a child of it that is not imposed, then two models with the same graph and the same states of the endogenous variables, whatever their equations, exogenous states and distributions, that give the same positive probabilities to the endogenous values, answer every causal query about this intervention, with or without evidence, in the same way. The answer is a formula of the observed probabilities: in each component the probabilities of the variables given all earlier ones are multiplied and summed over the imposed variables. When models are learnt from compatible data with GDCC, the low and the up bound are both that formula of the relative frequencies, whatever the number of models and the random start.",
  "for all pairs of models of a graph, interventions, targets, evidence, store types, elimination orders, data sets, numbers of learnt models and random numbers",
  "Tests compute bounds for one model and see two close floating point numbers; that they must be equal, for which graphs, and to what, is a theorem about all models.",
  ["bcause/inference/causal/causal.py:CausalInference.causal_query", "bcause/inference/causal/multi.py:GDCC.compile", "bcause/inference/causal/multi.py:CausalMultiInference.query", "bcause/models/cmodel.py:DiscreteCausalDAGModel.endo_ccomponents"])

p("C104", "Effects of variables that share an unobserved cause with a child are not determined by observations",
  "The condition of C103 is exact for interventions on one variable: the answers to the causal queries with an imposed state of the endogenous variable x are determined by the graph and the positive distribution of the endogenous variables if and only if x is not connected with a child by a chain of shared exogenous variables. If it is connected, there are two causal models with this graph, accepted by the constructors, with the same endogenous variables and the same positive distribution of them, and a causal query on x to which the library answers differently.",
  "for all acyclic graphs, endogenous variables, store types, elimination orders and settings of cast_multinomial and check_factors",
  "Tests can show that a query is not identified for one pair of models; for which graphs such a pair exists, that is when a gap between the bounds of GDCC or EMCC is not a defect, is a statement about all graphs.",
  ["bcause/inference/causal/causal.py:CausalInference.causal_query", "bcause/models/cmodel.py:StructuralCausalModel.__init__", "bcause/models/cmodel.py:DiscreteCausalDAGModel.endo_ccomponents"])

p("C105", "Renaming the variables of a model renames the answers of its queries",
  "For a renaming that is injective on the variables of the model, the renamed model gives to a query in the new names the answer that the model gives to the query in the old names: the answer has the renamed variables and the same value in every state of them. This holds for conditional queries of networks, for causal queries with interventions and evidence, and for counterfactual queries over several worlds.",
  "for all networks and causal models, injective renamings (also ones that exchange names), targets, evidence, interventions, store types and pairs of elimination orders",
  "A metamorphic property: a test checks it for one model and one renaming; that names occur nowhere but as names, in particular not in the names that counterfactual queries make up, is a statement about all of them.",
  ["bcause/models/pgmodel.py:DiscreteDAGModel.rename_vars", "bcause/models/cmodel.py:StructuralCausalModel.rename_vars", "bcause/inference/probabilistic/elimination.py:VariableElimination.query", "bcause/inference/causal/causal.py:CausalInference.causal_query", "bcause/inference/causal/causal.py:CausalInference.counterfactual_query"])

p("C106", "Domains made up from numbers of states have these states, and when their true and false states are recognised",
  "create_domain gives every variable, in the given order, as many different states as asked for, numbered from the given first number. Of a variable with two states identify_true_false finds the true and the false state exactly if the numbers start at zero, or the states are strings and the numbers start at one (the default); the true state is the one with number one. All other made-up domains are refused by identify_true_false. Without variables create_domain raises an IndexError.",
  "for all names, sizes (also negative), first numbers and both kinds of states",
  "The two functions have to agree on a naming convention for all names and numbers; the tests use domains written out by hand.",
  ["bcause/util/domainutils.py:create_domain", "bcause/util/domainutils.py:identify_true_false"])
p("C107", "Changing between column-major and row-major order moves every cell to its place",
  "change_shape_order takes the value at the column-major position of a cell to the row-major position of the same cell, for every cell of the shape, so that it loses and repeats nothing; applied to the result with the dimensions reversed it gives the values back. It is refused, with a ValueError, exactly if the number of values is not the number of cells.",
  "for all lists of values, shapes (of any number of dimensions, also with empty ones) and cells",
  "Positions in several dimensions are wrong only for shapes that a test does not happen to use, for instance not square ones.",
  ["bcause/util/arrayutils.py:change_shape_order"])

p("C108", "The bounds on probabilities of causation cannot be improved",
  "For a cause and an effect with two states and an unobserved common parent, the values that prob_necessity_sufficiency returns for the causal models with given probabilities of observations "
  "and of the effect after imposing either state of the cause are exactly the numbers within the bounds of Tian and Pearl; the values of prob_necessity and prob_sufficiency are any pair within their "
  "own bounds. The models are built by the constructors, and their causal queries return the given probabilities.",
  "for all probabilities that some model can have, all numbers within the bounds, both value types, all choices of the inference engine and all names",
  "That no tighter bound is correct is a statement on the existence of models for every number of an interval.",
  ["bcause/inference/causal/causal.py:CausalInference.prob_necessity_sufficiency", "bcause/inference/causal/causal.py:CausalInference.prob_necessity", "bcause/inference/causal/causal.py:CausalInference.prob_sufficiency"])

p("C109", "The exogenous sides of the components belong to their endogenous sides",
  "The exogenous sides of the c-components are disjoint and cover the exogenous variables with a child; the k-th exogenous side holds exactly the exogenous parents of the k-th endogenous side; "
  "get_exo_ccomponent returns it for each variable of the component; exogenous and endogenous parents (children) of a variable are its parents (children).",
  "for all directed graphs and all sets of endogenous variables",
  "The correspondence of two lists built from sets is not visible on models with a single component.",
  ["bcause/models/cmodel.py:DiscreteCausalDAGModel.exo_ccomponents", "bcause/models/info.py:get_exo_ccomponent", "bcause/models/cmodel.py:DiscreteCausalDAGModel.get_exogenous_parents",
   "bcause/models/cmodel.py:DiscreteCausalDAGModel.get_exogenous_children"])

p("C110", "Numeric state spaces are the state spaces with positions for labels",
  "numeric_state_space lists every tuple of positions once, in the order of the cells of a table, and its n-th element names the labels of the n-th element of state_space; "
  "numeric_assignment_space adds the names; steps_dict gives the distances in the table.",
  "for all domains",
  "Agreement of two enumerations has to hold for all shapes.",
  ["bcause/util/domainutils.py:numeric_state_space", "bcause/util/domainutils.py:numeric_assignment_space", "bcause/util/domainutils.py:steps_dict"])

p("C111", "Which domains factors accept",
  "_check_domain accepts a dictionary exactly if its keys are strings that do not begin with an underscore and its values are non-empty lists of states of one type; it raises ValueError otherwise. "
  "It accepts all domains that factor operations form from accepted ones.",
  "for all dictionaries with keys and states of any types",
  "The inputs range over values of all Python types.",
  ["bcause/factors/factor.py:DiscreteFactor._check_domain"])

p("C112", "Changing a derived model does not change the model it was made from",
  "After copy, to_multinomial, intervention or rename_vars, setting factors of the new model, or changing its factors in place, leaves the old model as it was, and the other way round: "
  "a program that makes, copies, converts, intervenes, renames and changes models gives each of them the contents it would have if models shared nothing.",
  "for all programs, models and in-place changes",
  "Whether two models share an object depends on how they were made; a test sees it only if it changes one and looks at the other.",
  ["bcause/models/pgmodel.py:DiscreteDAGModel.copy", "bcause/models/pgmodel.py:PGModel.set_factor", "bcause/models/cmodel.py:StructuralCausalModel.intervention",
   "bcause/models/cmodel.py:StructuralCausalModel.to_multinomial", "bcause/models/cmodel.py:StructuralCausalModel.rename_vars", "bcause/factors/factor.py:DiscreteFactor.rename_vars"])
p("C113", "A model can be queried and learnt whatever stores its tables are kept in",
  "The vtype of a factor only says how its table is kept: queries to a model give the posterior distributions, and a step of expectation maximisation the new tables, "
  "whatever the vtypes of the factors, also when they differ from one another or from the default vtype.",
  "for all networks, assignments of stores to tables, default stores, queries and data",
  "The tests use one vtype at a time, mostly the default; which tables meet in an operation depends on the query.",
  ["bcause/factors/mulitnomial.py:MultinomialFactor.builder", "bcause/factors/values/numpyops.py:NumpyStoreOperations", "bcause/factors/values/operations.py:GenericOperations",
   "bcause/inference/probabilistic/elimination.py:VariableElimination.run", "bcause/learning/parameter/expectation_maximization.py:ExpectationMaximization._expectation"])
p("C114", "Answers to different queries of a model fit together",
  "Answers given by one model satisfy the rules of probability among themselves: the answer for T and U summed over U is the answer for T; it is the answer for U times the answer "
  "for T when the states of U are also observed; a conditional query agrees with the query that has the conditions as evidence; query(T|U)*query(U) summed over U is query(T), and "
  "query(T|U)*query(U)/query(T) is query(U|T); the order of targets and observations does not matter. The same holds for queries with imposed states.",
  "for all models, stores, elimination orders, disjoint sets of targets and evidence of non-zero probability",
  "Each query builds its own pruned network and its own elimination order; agreement between queries can only be sampled.",
  ["bcause/inference/probabilistic/elimination.py:VariableElimination.run", "bcause/inference/probabilistic/probabilistic.py:ProbabilisticInference.query", "bcause/inference/causal/causal.py:CausalInference.causal_query"])

p("C115", "Printed forms say what they show",
  "Two tables (equations, interval factors) have the same printed form exactly when they have the same variables on both sides, the same numbers of states in the same order, and the same "
  "first four values, with the same last value when there are more; the name of a table is never that of an equation. Two networks have the same printed form exactly when their variables have "
  "the same numbers of states, known for the same ones, and their graphs have the same nodes and parents; two causal models when moreover the same variables are endogenous.",
  "for all factors and models, in any stores, whose names of variables have none of the separators used in the text, and any injective text of values without those separators",
  "Whether two different objects can be confused by their text is a statement about all pairs of objects.",
  ["bcause/factors/mulitnomial.py:MultinomialFactor.__repr__", "bcause/factors/deterministic.py:DeterministicFactor.__repr__", "bcause/factors/imprecise.py:IntervalProbFactor.__repr__",
   "bcause/factors/values/store.py:DiscreteStore.values_str", "bcause/models/bnet.py:BayesianNetwork.__repr__", "bcause/models/cmodel.py:StructuralCausalModel.__repr__"])

p("C116", "Bounds from more models contain those from fewer",
  "The bounds of an interval result depend only on which answers there are, not on their order or repetition; the bounds of more models contain those of fewer, and adding models to an object never "
  "narrows the bounds of a query or the numbers read from it; the bounds of two groups together are the lesser and the greater of the bounds of the groups; conditioning the answers and then taking "
  "bounds gives the same as conditioning the bounds.",
  "for all lists of models or tables with finite values over the same variables and states, in any store, all queries they answer and all joint states",
  "A statement about pairs of lists of models of any length; tests compare single runs with stored numbers.",
  ["bcause/factors/imprecise.py:IntervalProbFactor.from_precise", "bcause/factors/imprecise.py:IntervalProbFactor.restrict", "bcause/inference/causal/multi.py:CausalMultiInference.query",
   "bcause/inference/causal/multi.py:CausalMultiInference.add_models"])

p("C117", "Counterfactual answers obey the laws of potential outcomes",
  "Answers of different counterfactual queries of one causal model fit together. Only what is imposed in the world of a target matters, not the number of the world nor the order of the imposed states. "
  "That variables W have the states w and T the states t when d is imposed is as probable as that W have the states w when d is imposed and T the states t when d and W = w are imposed. Summing a target out "
  "of an answer gives the answer without it. With one world and no evidence the answer is the interventional one, and it is the average of the answers given each state of a variable, weighted with their probabilities.",
  "for all structural causal models, stores, elimination orders, evidence of non-zero probability, and all worlds and targets that are endogenous, whose imposed variables have a child not imposed in the same "
  "world, and whose copies have new names",
  "Each query builds another fused network with other names, so the laws relate runs on different networks; tests compare single runs with stored numbers.",
  ["bcause/inference/causal/causal.py:CausalInference.counterfactual_query", "bcause/inference/causal/causal.py:CausalInference.causal_query", "bcause/models/transform/combination.py:fusion_roots"])

p("C118", "Operators between tables, equations, interval factors and numbers",
  "An operator between operands of different kinds either computes with the tables they stand for (an equation stands for its zero-one table, a number for a constant table) or is refused with an exception.",
  "for all tables, equations, interval factors and numbers, in any store, and all of the operators *, +, -, / and **",
  "A statement about all pairs of kinds of operands; tests multiply tables only.",
  ["bcause/factors/mulitnomial.py:MultinomialFactor.multiply", "bcause/factors/mulitnomial.py:MultinomialFactor.__rmul__", "bcause/factors/deterministic.py:DeterministicFactor.multiply",
   "bcause/factors/imprecise.py:IntervalProbFactor.multiply", "bcause/factors/factor.py:Factor.combine_all"])

p("C119", "Variables may be given by name or in any container of names",
  "Every query and graph function that takes variables treats a name as the list of that name, and a list, set or dictionary view as the variables in it: the answer is that for the variables meant, in whatever form and order they are given.",
  "for all names, containers, networks, structural causal models, tables of records, evidence, interventions, stores and graphs",
  "A statement about all ways of writing the same query; tests use one form per query, with names that are strings.",
  ["bcause/util/arrayutils.py:as_lists", "bcause/inference/probabilistic/probabilistic.py:ProbabilisticInference.query", "bcause/inference/causal/causal.py:CausalInference.query",
   "bcause/inference/probabilistic/datainference.py:LaplaceInference.compile", "bcause/util/graphutils.py:dsep_nodes", "bcause/util/graphutils.py:dcon_nodes", "bcause/util/graphutils.py:connected"])

p("C120", "The stop watch measures from the last start",
  "Reading or stopping the watch gives the milliseconds since it was last started; reading does not stop it; a watch that was never started, or has been stopped, cannot be read or stopped. There is one watch for all users.",
  "for all sequences of calls of start, stop, stop_print and get_time, and all readings of the clock",
  "A statement about all sequences of calls.",
  ["bcause/util/watch.py:Watch.start", "bcause/util/watch.py:Watch.stop", "bcause/util/watch.py:Watch.stop_print", "bcause/util/watch.py:Watch.get_time"])

p("C121", "Colours are written as two hexadecimal digits for each byte",
  "A colour with components between 0 and 1 is written as a number sign and the two hexadecimal digits of the byte of each component, so that colours have the same text exactly if their bytes are the same; the colours of a list of n are those of the colour map at n equally spaced points.",
  "for all components between 0 and 1, all numbers of colours and all colour maps",
  "A statement about all colours and colour maps.",
  ["bcause/util/plotutils.py:rgb_to_hex", "bcause/util/plotutils.py:get_linear_colors"])

p("C122", "A drawing shows every variable and every edge once",
  "The drawing of a causal model has each variable once, in the colour of its kind and with its name in a different colour, and each edge once, dashed exactly if it starts at an exogenous variable; if some variable has no position the drawing is refused.",
  "for all structural causal models and positions",
  "A statement about all graphs; drawings are not tested.",
  ["bcause/models/cmodel.py:StructuralCausalModel.draw"])
