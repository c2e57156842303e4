h("C81", "`Learn.EMScm`: `ExpectationMaximization`, `SimpleModelAggregatorEM` and `EMCC` on causal models, with the drawn numbers as argument. The frame that the runs share is threaded through them, since each run adds its missing columns to it.", "A model without deterministic factors is the image of a network (`liftScm`), and every step of learning commutes with this map (`Learn.EMScmLemmas`), so that C56 and C58 apply; C80 gives positive exogenous tables, which make every record possible; C42 and C50 give the bounds.")
h("C82", "`Inference.MultiCausal`: the object with its models, its inference objects and the attribute `_model`, which the constructor leaves unset; the queries are those of `Inference.Causal`. `identify_true_false` is a parameter (it is the subject of C47).", "`multi_query`: if every model answers with a factor over the same variables and states, the object answers with their envelope (C50). C43 and C46 give the answers of the models, C81 the fitted models; a record with the cause and the effect makes this case possible in all of them.")
h("C83", "`Learn.Gdcc`: a `GradientLikelihood` object with the methods it inherits; scipy's `minimize` and the logarithm are parameters. Likelihood of the endogenous part of the records: `endoLik`.", "`endoLik_split` writes the likelihood as a product of one factor for each exogenous variable, which is `compLik` of C61, and a constant; `C61_order` says that the objective orders distributions as this factor does. A product of nonnegative maxima is a maximum.")
h("C84", "`Gdcc.generate`, `Gdcc.compileObj`: one learning object for each draw, the shared frame threaded through; `MultiObj` of C82. `FindsLeast` says that the optimiser does its part, from whatever model on.", "C83 for each draw; C80 for the drawn prior. `C84_agree`: the mean of two maximisers would be likelier if they differed on a record (arithmetic and geometric mean). C42, C46, C50 and C82 for the bounds.")
h("C85", "Nothing new is modelled: `Causal.causalQuery`, `VEObj.query`, `VEObj.queryCond`, the operations of factors and `DiGraph.removeIngoing`, `removeOutgoing`, `dSeparated`, `dsepNodes`. Reachability is the closure of the edge relation.", "`BN.cut d`: the network in which the children of the variables of `d` read the states of `d`. It is a network over the graph without the edges out of these variables; where they have the states of `d` its marginals are those without intervention (`cut_marg`), with them summed out those of the intervention (`cut_doMarg`, an ancestral set). `dsep_margs` (C24) in this network gives the exchange. An ancestral set without intervened variables has the same tables (`noEffect`). C36, C39 and C42 say what the queries return, C79 what the expression is.")
h("C86", "`Factor.Frame`: columns and rows; a cell that is not a category becomes a given value `nan`; `sort_values` is insertion by codes (equal codes mean equal rows, so stability is not observable). The left variable is a string, membership in it is the test for a part.", "The state space is listed in the order of the codes (`pairwise_product`); sorting a permutation gives the one sorted list, and the order of whole rows gives the order of their beginnings (`sorted_prefixes`).")
h("C87", "Nothing new is modelled: the objects of C84 and C85. `empirical`: relative frequency in the records; `Compatible`: some model with the equations fits the frequencies; `adjusted`: the formula with frequencies.", "`empirical_unique`: the quotients of a distribution and the frequencies at the records sum to at most the number of records, and their product is at least one, so all are one (`log x < x - 1`); what is not recorded has no mass left. The learnt models are likelier than any other (C84), so this applies to them. C85's `adjust_sum` then has the same value in all. `C87_optimiser` shows that optimisers as C84 asks for exist: the fitting model has the least objectives.")
h("C88", "`IO.Files`: a disk (working directory, folders, texts of files), paths as `pathlib` normalises them, `save` and `read` with the text functions of C63, C64 and the conversion of C65, C75. The BIF writer and reader of pgmpy are parameters.", "`place`: where a name points to. The text that a file holds is a fold over the calls (`session_spec`); the ending of a name is that of its place (`format_place`), so every name of a file selects the same reader. The formats are C63, C64, C75 and C33; `C88_class` follows from the first line of the texts. `C88_same_file` and `C88_same_absolute` say exactly which spellings name the same file; `..` and links are not resolved and two leading slashes are taken as one, as on Linux.")
h("C89", "Nothing new is modelled. `did`, `both2`, `one1` abbreviate `BN.doMarg` and `BN.marg`; `TianPearl` lists the inequalities.", "The natural bounds use the network of C85 in which the children of the imposed variables see the imposed states (`doMarg_natural`). For the others, each exogenous state fixes what happens with and without the cause (`worlds_of`), so inequalities between probabilities are inequalities between numbers of events that hold in each state (`cfProb_count`). `C89_gdcc_…` apply this to each learnt model, whose probabilities are the frequencies by C87.")
h("C90", "Nothing new is modelled. `Answerable` and `CanCause` speak of the graph and the query only.", "Setting factors keeps the graph, so the fused graph is known whether or not the construction succeeds: its copies are ends of edges of the worlds (`cfModel_nodes`). A copy without edges is no node, its factor is among those set, and a list of factors with one for a variable outside the graph is refused (`ofList_outside`). The other refusals are C41 on the fused model. C43 gives the converse.")
h("C91", "Nothing new is modelled. `Mediates` states the conditions with the graphs and the separation of the library; `frontDoor` is the formula over any probabilities, used with those of the model and with the frequencies.", "`front_door` from the rules of C85: the exchange for `X` and `M`, the exchange for `M` and the target with `X` imposed (separation in fewer edges, `dSeparated_sub`), the deletion of `X` when `M` is imposed, the adjustment for `X`. C36, C39, C42 and C79 for the library's expression; C87's frequencies for the learnt models.")
h("C92", "`Model.Sampling` of C30, with the numbers that the generator returns as argument, one for each node and record, over an exact field. `BN.below`: the probabilities of the states listed before the one in question; `Cell`: the draw lies between this and this plus the probability of the state. `frame`: the data frame of given records.", "The search in the cumulative sums finds the cell (`cumSums_find`); a record keeps the cells of its nodes when a node is added (`RecOk.extend`). Cells of different states are disjoint (`cell_inj`), so the records in whose cells the draws fall are determined along the order (`cells_inj`). The set of draws is a box; its Lebesgue measure is the product of the sides.")
h("C93", "Nothing new is modelled. `buildNet` calls the constructors with the entries of the tables; `TableDom` says that a domain lists the node and its parents with their states.", "The value at a joint state is the entry at its row-major position (`assignmentSpace_getElem?`, C01). Each factor fits its node whatever has been set before (`setAll`).")
h("C94", "`causalToBnet` converts factor by factor and builds the network from the list; `fromModel` of C33 is `bnet_to_causal`.", "Every factor that is set fits its node (`setAll`). The first table with an entry other than zero and one is refused: `ofDict_refused` runs through the factors before it. The same lemma gives `C33_exact`.")
h("C95", "`getDagStr`, and the constructors for a text: `ofDictText` of networks, and of causal models, where the default of `endogenous` runs through the characters of the text.", "C22 gives the graph that is read back; factors of nodes it does not contain are refused by networkx (`setAll_outside`). The refusal of causal models is by cases on the stages of the constructor.")
h("C96", "`sampleEndogenous` selects the columns of `forwardSampling`. A deterministic factor raises TypeError, since its methods `sample` and `sample_conditional` need an argument that is not given.", "The draws that give the columns are the disjoint union, over the states of the other variables in all records, of the boxes of C92; the sum of the products is the product of the marginals. The first deterministic factor in the order is reached, since the nodes before it are sampled as in the network of C94 (`sampling_det`).")
h("C97", "Nothing new is modelled: `EM.expectation`, `obsCounts` and the query are those of C57 to C59.", "Without target all nodes are irrelevant, so that a query without target combines no factors (`query_nil`). Parents are never separated from their child (`parent_dcon`), hence a record that gives a variable and its parents leads to such a query. A loop that succeeds has treated every element (`foldlM_inv`), so that one bad record suffices. Conversely C59.")
h("C98", "`framed` turns the records of `forwardSampling` (C92) into the data frame of `Laplace` (C48). The draws are a point of a cube, with Lebesgue measure.", "By C92 every point of the cube gives one of finitely many sequences of records, each with the product of the joint probabilities (`volume_eq`, `volume_le`). The answer is a quotient of numbers of records by C48 (`AskOk.answer`). The variance of the number of hits of independent draws is computed for finite sums (`Net/Chebyshev.lean`, which mentions no code); the quotient is near when both numbers are.")
h("C99", "Nothing new is modelled: the learner is that of C56 to C58. A `Variant` of a network has another distribution of one variable. Of the stopping rule it is only assumed that it accepts equal tables and no others; in floating point it may accept tables that differ a little.", "In terms of the records, a table that is left as it is is the mean of its posteriors (`newTable_rows`). The ratios of the probabilities of the records in a variant and in the network then have mean at most one, hence product at most one (`em_fixed_max`, by the inequality between x and exp(x - 1)). Conversely, if the table changes, Gibbs' inequality is strict (`em_strict_prod`). During a run, entries that become zero belong to states that no record allows (`excluded_step`), so that a positive prior is enough.")
h("C100", "Nothing new of the code is modelled. `OnGraph` and `Indep` state what a network with a graph and independence are. The states of the networks that show a dependence are finite sets of pairs of numbers, used as names.", "A walk that connects two nodes (`active_of_connected`) carries one bit per step (`walkCircuit`): sources draw it, middle nodes pass it on, a collider compares the bits that arrive and sends the result down to its observed descendant, which observes that they agree. In this network (`Circuit.net`) the ends always agree given the evidence, so that opposite states are possible apart and impossible together (`dsep_complete`). Queries follow from C36 and C93. `C100_observed_target`: for a target that is itself observed the library reports its parents as connected, hence the hypothesis that the sets are disjoint.")
h("C101", "Nothing new is modelled: `canonicalDeterministic` is that of C19 and the model is built with `SCM.ofDict`. `CanonIn` says what the function is called with; `SameAnswers` that two networks agree on `BN.cfProb` for all worlds.", "A state of an exogenous variable fixes the response of its child to the endogenous parents (`respond`). C19 gives a state of the canonical variable with the same response, so that the states are mapped (`Rich.exists_map`). Moving the probabilities along the map changes no sum over exogenous states (`sumOver_moved`), since solutions are mapped to solutions (`Reads.cfProb`). `C101_rich` is about any model whose exogenous variables select all combinations of responses, also when endogenous variables share them. The answers follow from C42, C43 and C46. With the default store an endogenous variable without endogenous parents gets no equation (`C101_default_store`), as in C19.")
h("C102", "Nothing new is modelled. `OverEndo` says what a network over the endogenous variables of another is, `SameEffects` that observing and intervening have the same probabilities in both.", "Every family of distributions of a child given its endogenous parents is a mixture of responses (`Rich.exists_cond`): the exogenous variable draws a response to every combination of parents independently. The sums over exogenous states then factorise (`endo_joint`), also after interventions, which gives `C102_rich`. With the relative frequencies as network (`freqNet`) the log-likelihood is the sum that `max_log_likelihood` computes (C49). The logarithm is any function that turns products of positive numbers into sums. The default store is left out for the reason of C101 (`C101_default_store`).")
h("C103", "Nothing new is modelled. `Unconfounded` is the condition, `effectOf` the formula; `components` are the components that the library reports (C66) and, by themselves, the variables without exogenous parent.", "The probability after an intervention is a sum over exogenous states of the remaining equations, which factorises along the components (`exoSum_parts`). In the component of an imposed variable, summing the product of all equations of the component over the imposed variables removes their equations and nothing else, because none of its children in the component is left (`exoSum_sum`). The product of all equations of a component is the product of the conditional probabilities given the earlier variables (`prefix_component`). `C103_determined` follows since nothing but the endogenous distribution is used, `C103_identified` since learnt models have the frequencies as distribution (C87). Positivity is needed for all but the last variable of the order. `C103_two_models` applies the theorem to two models with other exogenous states and equations. `C103_confounded` shows the condition at work: in `U → X → Z ← U` two models with the same observations answer differently.")

h("C104", "Nothing new is modelled: `buildScm` is the constructor of factors followed by the one of the causal model. `Determined` is the property, `Unconfounded` the condition of C103. The spec objects of the proof are networks with states in `Bool × Bool`.", "If x is connected with its child z a shortest chain of exogenous variables u_0, …, u_(n-1) and endogenous ones x = w_0, …, w_n = z meets no variable twice (`chain_exists`). Each exogenous variable is a fair coin with a biased second coin, x is the coin of u_0, each w_k the parity of its two coins and z adds the second coin of u_(n-1). In the first network z adds x as well, in the second the coin of u_0 is left out of w_1. Turning the coins of u_1, …, u_(n-1) when x is one exchanges the two networks, so the endogenous variables have the same distribution (`same_marg`). After imposing x, turning all coins turns z in the first network, so z is fair given the rest (`effect_first`); in the second network it is biased (`effect_second`). All three are one lemma on changing summed variables (`sumOver_change`). That both networks are causal models that the constructors return is `C93_causal_build`; what the queries return is C42. The other direction is C103.")

h("C105", "Nothing new is modelled. `inNewNames` is an observation in the new names, `SameRenamed` that one factor is the other with renamed variables.", "`BN.relabel` is the renamed network (C34). Sums over variables, probabilities after interventions and counterfactual probabilities of the renamed network are those of the network (`marg_relabel`, `doMarg_relabel`, `cfProb_relabel`), the renamed causal model is a causal model (`causalOk_ren`), and the answers of both models are these numbers (C36, C42, C43). For counterfactual queries the names of the copies have to be new after the renaming, which an injective renaming does not ensure: renaming X to Z_1 makes a query fail that the model answers (`C105_collision`). Renamings that do not mention an endogenous variable are refused for causal models (C34).")

h("C106", "`createDomain` with `str.lower` as an argument; states are Python values with their type, as in C47. Names are strings.", "The texts of different integers differ (`intStr_inj`); the candidates of `identify_true_false` are computed for every first number. That the lower case of a name followed by a number is its own lower case is a hypothesis, true of Python's `lower`.")
h("C107", "`changeShapeOrder` reads the values at the column-major positions (`ravelF`) of the cells listed in row-major order. The size -1 of numpy is left out. `columnMajor` and `rowMajor` are the positions as sums, for the statement.", "The column-major position in a shape is the row-major position in the reversed shape (`ravelF_reverse`), and row-major positions number the cells (C11).")
h("C108", "No new model: `respNet` is a network with an exogenous variable of eight values (natural value of the cause, and value of the effect under either value of the cause), so the tables of cause and effect are equations.", "`RespNet.mass` distributes the given probabilities over the eight units with two free numbers, the shares of the units for which the cause is necessary and sufficient; `exists_mass` chooses them for any number within the bounds. Counterfactual probabilities are sums over the units (`cfProb_eq`), and C46 says that the library computes them. The other direction of `C108_exact` is C89.")
h("C109", "`exoCComponents` (with C66), `getExoCComponent`, `exoParents`, `exoChildren`; sets are lists whose order is not used in the statements.", "Members of a component are the nodes connected to any of them (`mem_ccomponent`), and an edge from an exogenous to an endogenous variable is an edge of the graph whose components are taken.")
h("C110", "`numericStateSpace`, `numericAssignmentSpace`, `stepsDict` from the model of `domainutils.py`.", "Induction on the domain; the order is that of `idxSpace` (C11).")
h("C111", "`checkPyDomain` on dictionaries whose keys and states are Python values with their type (as in C47), and values that need not be lists. Elsewhere names are abstract; `C111_model` shows that `Factor.checkDomain` is this check for names without leading underscore and states of one type.", "Case analysis.")
h("C112", "`Model/Objects.lean`: factors are objects with an address, a model object holds addresses, and an in-place change (`write`, any function on factors; `set_value` is one) acts on the factor at an address. Programs are lists of operations; `modelRun` is the same program on values, with the functions of `Model/SCM.lean`. Graphs and lists of names are values, since no code changes them after a model is made (`copy` and `to_multinomial` share the graph, so a caller who edits `model.graph` would see the edit in both).", "Simulation (`step_same`): operations only append to the heap, so what older models show is unchanged; an in-place change is that of one model if no other entry has its address. `ofDict_entry`, `intervention_entry` and `From` say which addresses a new model holds. This also justifies that the other properties treat models as values.")
h("C113", "`Model/Mixed.lean`: a factor carries its vtype; operations compare the classes of the stores first, as `_generic_combine` does; elimination and a step of expectation maximisation are the same code over such factors, and the counts are made in the default store. Specification: `Relevant`, the nodes with a descendant that is asked for or observed and a link to the target that does not leave an observed node.", "One store: simulation by the model without vtypes. Different stores: an invariant of elimination gives every relevant node a remaining factor of the store of its table, which mentions a descendant on its left and so is never dropped; at the end all of them are combined. Conversely, irrelevant tables are removed first, so that they can be replaced by tables in the store of the others.")
h("C114", "No new definitions of code: answers of `VEObj.query`, `VEObj.queryCond` and `causalQuery` are compared with each other through factor operations of the model. The conclusions do not mention the network; `SameTable` compares cells.", "`Exactly` says that a query function returns posteriors of a network (from C36 and C42); the rules then follow from those of `BN.post` and from `Rep.marginalize`, `Rep.mul` and `apply_rep`. For imposed states the network is the mutilated one.")
h("C115", "`Factor.repr`, `DetFactor.repr`, `IFactor.repr`, `DagModel.repr` and `SCM.repr` (`Factor/Print.lean`) as lists of characters, with `str` of a value as a parameter `sh`; `dag2str` is the function of C22.", "Texts are cut at the first separator (`cut`), joined lists are injective when no element has the separator (`join_inj`), and the text of a graph determines nodes and parents (`dagText_inj`). `shownCards`, `shownDomains`, `shownValues`, `shownGraph` are the independent description of what is shown.")
h("C116", "No new definitions of code: `IFactor.fromPrecise`, `IFactor.restrict` and `MultiObj.query` are compared with themselves on other lists of factors or models. The query is any function that the models answer with finite tables over the same variables (`AnswersIn`).", "Least and greatest numbers of a list depend on its members only (`TightBounds.wider`, `.same`, `.union`), and C50 says that the bounds are these numbers; `multi_query` (C82) lifts this to objects. `C116_tables` and `answersIn_of_answer` show that the hypotheses are met.")
h("C117", "No new definitions of code: `counterfactualQuery` and `causalQuery` are compared with themselves on other worlds, targets and evidence.", "`BN.outcome u d` is the solution of the equations under `d` with exogenous states `u`; C43's formula becomes the mass of an event about outcomes (`cfEvent_eq`), and the laws are facts about events: composition is uniqueness of the solution (`outcome_compose`), summing out and averaging are a partition of the exogenous states (`pr_sum_value`). Helper lemmas in `Inference/Potential.lean`.")
h("C118", "`Operand` is a table, an equation, an interval factor or a number; `Operand.binop` is python's dispatch of the operators over them (`Factor/Operands.lean`), with `Factor.withEqn` for the case in which the cells of an equation, which are states, take part in arithmetic (`label` says which states are numbers).", "By cases over the kinds; tables and numbers go through `FExpr.apply_rep` (C79). `Stands` is the specification: what table an operand stands for, read by its cells.")
h("C119", "`Arg` is an object that can name a variable, or an unhashable container; `NameKind` says which names are strings and what `list(name)` is for the others; `asLists` is `as_lists` (`Inference/Arguments.lean`), and the queries on arguments call the query functions of the other claims.", "`Means` is the specification of what an argument stands for; each statement reduces to the one for lists (C36, C39, C42, C48, C114). That separation depends only on the sets is `dSeparated_congr`. Partial: `dcon_nodes` refuses containers (`C119_container_refused`), and names that are not strings are refused or taken apart (`C119_not_string`, `C119_tuple`).")
h("C120", "`Util/Watch.lean`: a call of a class method with what the clock shows; the class attribute is the state. Calls of subclasses are left out.", "`Running` is the specification, on the list of calls alone; induction from the end of the list.")
h("C121", "`Util/Plot.lean`: exact numbers instead of floats, `int` truncates towards zero, the format `02x`, and the colour map of matplotlib as a parameter.", "`IsByte` and `twoDigits` are the specification; the 256 texts of a byte are evaluated by the kernel.")
h("C122", "`Model/Draw.lean`: `draw` as the list of the calls of networkx with their arguments, each of which fails if a position is missing.", "What is drawn is read off the calls (`drawnNodes`, `drawnTexts`, `drawnEdges`) and compared with the nodes and edges of the graph as permutations.")
