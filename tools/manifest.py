#!/usr/bin/env python3
"""Writes MANIFEST.json from the table below and checks that every theorem exists in the sources."""
import json, os, re, glob
ROOT = os.path.dirname(os.path.dirname(os.path.abspath(__file__)))
C = []
def c(prop, status, theorems, note):
    C.append({"property": prop, "status": status, "theorems": ["Verif.Props." + t for t in theorems], "note": note})

c("C01", "proved", ["C01_product_pointwise"], "All four stores, shared variables having equal state lists.")
c("C02", "partial", ["C02_label_pairing_partial", "C02_numpy_violation", "C02_numpy_by_place", "C02_by_place_example", "C02_exact", "C02_exact_example"],
  "False for the default store (counterexample proved). Proved for list, numpy1d and treedict. For the default store it is proved what happens instead: values are paired by place of the states, whatever the labels, so that it is right exactly for domains that list the states of shared variables in the same order (C02_exact).")
c("C03", "proved", ["C03_sum_pointwise", "C03_difference_pointwise", "C03_scalar_operand"], "All four stores.")
c("C04", "proved", ["C04_division_pointwise", "C04_zero_over_zero"], "Exact field extended with nan and inf; 0/0=0 in the numpy store.")
c("C05", "proved", ["C05_marginalize_sums", "C05_marginalize_absent"], "All four stores.")
c("C06", "proved", ["C06_maxmarginalize", "C06_numpy1d_refuses"], "numpy, list and treedict; numpy1d raises.")
c("C07", "proved", ["C07_restrict_conditions", "C07_restrict_bad_state"], "All four stores.")
c("C08", "partial", ["C08_list_restriction_partial", "C08_violation_order", "C08_violation_two_lists", "C08_violation_axes", "C08_one_list", "C08_in_order", "C08_out_of_order", "C08_apart", "C08_apart_example", "C08_one_list_example", "C08_two_lists", "C08_no_lists"],
  "False in general (three counterexamples proved). What the default store does is characterised for every observation: no list of two or more states is the same as states; one list gives values by place in the list (right exactly when listed in domain order) if the observed variables are together; apart, it raises unless the cardinalities happen to match; two lists always raise.")
c("C09", "proved", ["C09_store_independence"], "Induction on expressions; full trees.")
c("C10", "proved", ["C10_read_after_writes"], "Any sequence of writes, all four stores.")
c("C11", "proved", ["C11_index_of_state", "C11_partial_observation"], "")
c("C12", "proved", ["C12_values_roundtrip", "C12_wrong_length"], "All four stores.")
c("C13", "proved", ["C13_values_array"], "")
c("C14", "proved", ["C14_rename"], "")
c("C15", "proved", ["C15_left_right_bookkeeping", "C15_summed_out_is_one"], "All four stores.")
c("C16", "proved", ["C16_to_multinomial", "C16_column_sums"], "")
c("C17", "partial", ["C17_roundtrip_partial", "C17_violation", "C17_false", "C17_exact", "C17_exact_example"],
  "False: to_deterministic stores the argmax index, not the state. Proved: the round trip yields the index of the state, and is exact precisely when every state that is selected somewhere is its own index.")
c("C18", "proved", ["C18_constant", "C18_constant_bad_state", "C18_constant_deterministic"], "Both factor classes.")
c("C19", "partial", ["C19_canonical_partial", "C19_violation_two_parents", "C19_violation_no_parents", "C19_numpy_refuses"],
  "False for the default store, which raises ValueError for every number of endogenous parents other than one. Proved for the other stores, and for the default store with one parent.")
c("C21", "proved", ["C21_barren_nodes"], "")
c("C23", "proved", ["C23_markov_blanket", "C23_markov_blanket_util"], "")
c("C24", "proved", ["C24_dsep_independence", "C24_dsep_posterior"], "")
c("C25", "proved", ["C25_elimination_order"], "")
c("C28", "proved", ["C28_acyclic"], "")
c("C31", "proved", ["C31_intervention", "C31_other_factors", "C31_example", "C31_unknown_ignored"], "Joint equals the truncated factorisation; names that are not variables are ignored by intervention.")
c("C32", "proved", ["C32_compose", "C32_commute", "C32_idempotent"], "Equality of the resulting objects.")
c("C33", "partial", ["C33_to_multinomial_partial", "C33_to_bnet_partial", "C33_exact", "C33_roles_lost", "C33_explicit_roles_lost", "C33_root_not_cast", "C33_exogenous_with_parents"],
  "False: to_multinomial forgets the classification of the variables, leaves deterministic roots as they are and fails for exogenous variables with parents (proved on examples). Proved when the endogenous variables are those with parents.")
c("C34", "proved", ["C34_rename_causal", "C34_rename_bnet", "C34_endogenous_must_be_mapped", "C34_unmapped_fails"],
  "Mapping injective on the variables; for causal models it must mention the endogenous ones, otherwise renaming fails (proved).")
c("C36", "proved", ["C36_exact_posterior"], "All four stores; exact arithmetic.")
c("C37", "proved", ["C37_heuristic_irrelevant", "C37_admissible"], "Any order chosen by the heuristic.")
c("C38", "proved", ["C38_pruning"], "")
c("C39", "partial", ["C39_conditional_partial", "C39_conditional_any_store", "C39_sums_to_one", "C39_pruned", "C39_exact", "C39_zero_evidence", "C39_exact_example"],
  "Proved for evidence of non-zero probability. False without it: evidence that is impossible through a pruned-away node gives a non-zero answer (counterexample proved). Exact for the default store: the answer is the conditional distribution of the pruned network for all evidence (C39_pruned), right at a joint state if and only if P(c, e) is not zero or the pruned network gives the joint state probability zero (C39_exact).")
c("C40", "proved", ["C40_impossible_evidence"], "")
c("C41", "partial", ["C41_refused_partial", "C41_exact", "C41_exact_cond", "C41_recorded", "C41_history", "C41_stale_answer", "C41_repeated_conditional", "C41_exact_example"],
  "False: a query refused for an unknown name overwrites the recorded target and evidence of a compiled object, whose run() then answers from the old pruned model, and conditional queries accept repeated targets (both proved). Proved: all other refusals. Exact: a query is answered if and only if its names are in order (C41_exact; C41_exact_cond for conditional queries without repeated targets); what a refused query leaves behind is its target and evidence and nothing else (C41_recorded), and no later query depends on it (C41_history).")
c("C35", "proved", ["C35_fused_joint", "C35_fusion"], "Models that share the given roots and no other names (the code does not check this); the tables of the roots are those of the first model.")
c("C42", "proved", ["C42_interventional", "C42_unknown", "C42_do_wins", "C42_example"], "Evidence that contradicts the intervention is overwritten by it (C42_do_wins).")
c("C43", "partial", ["C43_counterfactual_partial", "C43_one_world_partial", "C43_name_collision", "C43_example", "C43_example_value"],
  "False when a variable has the name of a copy (wrong answer, proved). Proved for endogenous interventions with a child in their world, endogenous targets and new names.")
c("C44", "partial", ["C44_answered_partial", "C44_childless", "C44_exogenous_do", "C44_exogenous_target", "C44_intervened_target"],
  "False: interventions on childless or exogenous variables fail (proved on examples here; exactly which queries are answered is C90). Proved for the other queries.")
c("C45", "proved", ["C45_consistency", "C45_example_value"], "For the queries that the code answers (see C44).")
c("C46", "partial", ["C46_necessity_partial", "C46_sufficiency_partial", "C46_necessity_sufficiency_partial", "C46_range_partial", "C46_identity_partial", "C46_example", "C46_childless"],
  "Values, range and identity proved for endogenous causes with a child; other causes fail (proved on an example here, for all models in C90).")

c("C20", "proved", ["C20_normalize_array", "C20_random", "C20_random_nonzero", "C20_uniform", "C20_zero_column"],
  "All shapes, axes and draws with non-zero column sums; a zero column gives nan (proved on an example).")
c("C22", "partial", ["C22_roundtrip_partial", "C22_single_node", "C22_isolated_lost", "C22_exact", "C22_empty"],
  "Holds exactly for graphs of two or more nodes in which every node has an edge: isolated nodes are lost by str2dag, and graphs of one node or none cannot be read.")
c("C47", "partial", ["C47_the_states", "C47_refused", "C47_order_partial", "C47_exact", "C47_exact_list", "C47_case", "C47_examples", "C47_exact_example"],
  "Order independence exact: it fails if and only if the two states are different strings with the same lower-case form, that of the name followed by 0, 1 or 2 (C47_exact, C47_exact_list; C47_case is a witness); other parts proved in full.")
c("C70", "proved", ["C70_powerset"], "")

c("C26", "partial", ["C26_histories", "C26_constructed", "C26_constructed_dict", "C26_refused_partial", "C26_unknown_name", "C26_accepted"],
  "The invariant holds for all histories of calls. Refusals are ValueError for the nodes of the graph; for a name that is not a node the code raises NetworkXError (C26_unknown_name).")
c("C27", "partial", ["C27_topological_partial", "C27_child_first", "C27_parent_first", "C27_state_order", "C27_built", "C27_exact", "C27_orders", "C27_exact_example"],
  "The property is false for some orders: C27_child_first constructs a model whose two tables have different states for the same variable; C27_state_order shows that only sets of states are compared. Proved for orders in which parents come first. Exact for all orders: tables are accepted iff each fits its node and agrees with those before it (C27_built); the model is consistent iff each also agrees with those after it (C27_exact), iff the tables are accepted in every order (C27_orders).")
c("C29", "proved", ["C29_prob", "C29_total", "C29_prob_total", "C29_ancestral", "C29_example"], "")
c("C30", "proved", ["C30_sampling", "C30_no_samples", "C30_example"],
  "The generator is an arbitrary family of numbers in [0, 1), the order any topological order. n must be at least 1: n = 0 is refused.")
c("C62", "partial", ["C62_single_partial", "C62_exact", "C62_parts", "C62_list", "C62_substring", "C62_exact_example"],
  "The property is false: with a single name the code tests substrings (C62_substring). It holds exactly for names of which no other name is a substring (C62_exact, both directions).")

c("C66", "proved", ["C66_disjoint", "C66_cover", "C66_together", "C66_minimal", "C66_get", "C66_example", "C66_omitted"],
  "C66_omitted: endogenous variables without exogenous parent are in no component.")
c("C67", "partial", ["C67_contains", "C67_acyclic_partial", "C67_markovian_partial", "C67_cyclic", "C67_exact", "C67_built", "C67_exact_example"],
  "Acyclicity is false in general: C67_cyclic gives a semi-Markovian model whose graph has a cycle for every topological order. Proved when outside parents of a component come before its members, and for Markovian models. Exact: the graph is acyclic, and the network is built, iff some order of the endogenous variables suits it (C67_exact, C67_built).")

c("C50", "proved", ["C50_envelope", "C50_restrict", "C50_pair", "C50_scalars", "C50_refused", "C50_example", "C50_nan"],
  "For finite values (C50_nan shows what nan does).")
c("C51", "partial", ["C51_current_partial", "C51_shared", "C51_caller_list", "C51_emcc"],
  "False when two objects share a list (C51_shared) and for EMCC, which replaces models that were set (C51_emcc). Proved for histories in which no list held by another object is changed.")
c("C52", "proved", ["C52_incremental", "C52_final", "C52_zero"],
  "The final number of models exceeds num_runs by less than step when step does not divide what is missing.")
c("C53", "partial", ["C53_sequential", "C53_parallel_partial", "C53_parallel", "C53_refused", "C53_exact", "C53_exact_distinct", "C53_exact_example"],
  "False with threads (C53_parallel). Proved without threads; with threads objects and models agree up to order; C53_exact says exactly when they correspond.")

c("C48", "proved", ["C48_frequency", "C48_conditional", "C48_no_records", "C48_missing"],
  "For complete data within the domains with a matching record; without one the query raises ZeroDivisionError (C48_no_records); C48_missing shows what happens with missing values.")
c("C57", "partial", ["C57_weights_partial", "C57_at_least", "C57_answered", "C57_exact", "C57_double", "C57_empty", "C57_exact_example", "C57_apart"],
  "False with different missing values in different records (C57_double) and for records without a relevant observation (C57_empty). Exact: there are weights if and only if every record has a relevant observation (C57_answered), and they add up to the number of records if and only if no record agrees with the pattern of another that is not its own (C57_exact); so when all records miss the same columns.")
c("C60", "proved", ["C60_first", "C60_exactly_once", "C60_patterns"],
  "Equality of patterns is equality of python dictionaries.")

c("C54", "partial", ["C54_loop", "C54_first_run", "C54_unlimited", "C54_function", "C54_second_run"], "Any learner. True for the first run of an object; a second run keeps the models of the first (witness), so the evolution then is the old one followed by the new models (C54_loop).")

c("C55", "partial", ["C55_no_learning", "C55_second_run", "C55_stops_early", "C55_first_step_partial"], "False of the code: the set of converged variables survives a run, so once all trainable variables have converged every later run returns the prior whatever its data (C55_no_learning, for all networks, data and bounds; C55_second_run is a witness). Even with nothing converged the second run may stop after one step, because its first model is compared with the last model of the first run (C55_stops_early). What holds: with nothing converged the second run starts as a fresh one, up to and including its first step.")
c("C56", "proved", ["C56_run", "C56_unbounded", "C56_history", "C56_example"], "For trainable variables that are roots and never observed (the exogenous variables), any stopping rule, any admissible order and set iteration, any history of runs; records must be possible under the prior and in each something must be observed that is not separated from the trainable variable (else the query has no evidence).")
c("C59", "partial", ["C59_counts", "C59_own_configuration_partial", "C59_broadcast", "C59_other_configurations", "C59_observed_parent", "C59_exact", "C59_exact_example"], "C59_exact says exactly when it holds: whatever is observed of a variable and its parents has one state only. False of the code: the posterior has no axis for the observed parents and is broadcast over all their configurations (C59_broadcast for all networks; C59_observed_parent is a witness, C59_other_configurations says that the count is strictly too large). Proved when neither the variable nor a parent is observed.")

c("C58", "partial", ["C58_step_partial", "C58_run_partial", "C58_end_partial", "C58_mixed", "C58_run_example", "C58_example"],
  "Exact arithmetic over any Archimedean ordered field, hidden roots (the exogenous variables of causal models), and the same columns observed in all records: a step does not lower the likelihood, and neither does a whole run. Without the last condition the statement is false (C58_mixed): a record with missing values also counts the records that agree with it.")

c("C71", "partial", ["C71_incomplete_observation", "C71_completed"],
  "The statement is false; the theorem says for each of the four stores what is returned: the first matching cell (list, numpy1d, numpy with one variable left), or an array or dictionary instead of a number (numpy with more variables left, treedict).")
c("C72", "proved", ["C72_hidden_blanket", "C72_nothing_hidden"],
  "Independence holds for all observed variables outside the result together. The result also contains hidden variables that are connected to the target.")
c("C73", "proved", ["C73_minimal_observations"], "For records of positive probability that do not observe the target.")

c("C63", "partial", ["C63_round_trip_partial", "C63_joint", "C63_names_small", "C63_isolated", "C63_names", "C63_exponent", "C63_indices"], "proved for networks in which every variable has an arc, no written name of a parent is contained in the one of its child and all probabilities are printed without exponent; false otherwise, with a witness for each condition")

c("C65", "partial", ["C65_table_partial", "C65_exact", "C65_raises", "C65_first", "C65_order", "C65_first_example"], "for factors whose variable comes last, exact: exported, and then correctly, if and only if there is at most one parent or the first parent has as many states as the variable (C65_exact); with the variable before its parent the matrix is transposed, which is right exactly for symmetric tables (C65_first); C65_order is a witness")
c("C75", "partial", ["C75_import", "C75_export_partial", "C75_net_partial", "C75_round_trip_partial", "C75_isolated", "C75_unset"], "the import is proved for all tables; the round trip for networks in which every variable has an arc and the export of every factor is right (C65); an isolated variable is lost (C75_isolated); the constructor and get_value of pgmpy are modelled from their documentation")

c("C64", "partial", ["C64_round_trip_partial", "C64_labels", "C64_constant", "C64_isolated", "C64_exponent"], "Writing and reading keeps graph, endogenous variables, equations and exogenous tables, up to the renaming, for connected models with printable numbers whose endogenous variables are the ones with parents. It fails for uncast equations whose states are not 0, 1, ..., constants, isolated variables and numbers printed with an exponent.")
c("C74", "partial", ["C74_type_error", "C74_keywords_partial"], "submodel raises a TypeError on every model because the arguments of builder are given by position. With keyword arguments the result would be the marginal network.")

c("C68", "proved", ["C68_tree", "C68_store", "C68_no_lookup", "C68_copy_constant", "C68_copy_node", "C68_negative_end", "C68_negative", "C68_default"], "The tree built from a non-negative table has the values of the table, read off with is_on_left; get_value and all other operations are not implemented in the code. Found besides: copies of constant stores, default data for several variables and negative ends are refused.")
c("C76", "partial", ["C76_last_split", "C76_not_best"], "Does not hold: info_max is never updated, so the last splittable variable is always chosen; proved for all tables, with a table on which another split has more information.")

c("C69", "partial", ["C69_arrays", "C69_arrays_write", "C69_trees_partial", "C69_tree_same_node", "C69_tree_shares", "C69_tree_shares_back", "C69_shallow"], "Holds for the three array stores in every program (one-dimensional arrays: without copy(deep=False)). For trees proved when every written store was made by the constructor or copy() and has not lent nodes; without that it fails, with witnesses in both directions.")

c("C61", "partial", ["C61_built", "C61_objective_partial", "C61_childless", "C61_not_counted", "C61_order", "C61_decomposes", "C61_total", "C61_updated", "C61_deterministic", "C61_two_parents", "C61_names"], "Proved for models with tables (cast equations): the objective is minus the sum over the counted records of log sum_u theta_u prod P(v|pa), infinite exactly when a counted record is impossible; smaller objective = larger likelihood; over all exogenous variables the objectives add up to minus the log-likelihood of the model. Witnesses: deterministic factors give a KeyError, two exogenous parents are given the same state, records with missing values are left out, and a variable whose name contains another name cannot be updated. The optimiser of scipy is a parameter.")

c("C49", "partial", ["C49_empirical", "C49_model", "C49_impossible", "C49_missing_value", "C49_bound", "C49_any_network", "C49_max_partial", "C49_no_exogenous_parent", "C49_deterministic", "C49_no_records", "C49_missing"], "max_log_likelihood is the likelihood with the relative frequencies, and it is at least the one of any network over the decomposition graph and the log_likelihood of any model with the same graph, for every store, every order of python's sets and every selection of variables. Needed: complete non-empty data, an acyclic decomposition graph (C67), an exogenous parent for each endogenous variable, equations given as tables, and records that are possible. Witnesses show what the code does without each of these.")

c("C77", "proved", ["C77_factorisation", "C77_log_likelihood", "C77_impossible", "C77_exogenous_child"], "For every logarithm (log(xy) = log x + log y on positive numbers), every store and every order of python's sets; equations as tables (C49_deterministic says what happens otherwise) and records of positive probability (C77_impossible: ValueError with arrays). C77_exogenous_child: a model with an exogenous variable caused by an endogenous one is accepted and the factorisation fails. C67_cyclic, C49_no_exogenous_parent: what happens without the other two conditions.")
c("C78", "proved", ["C78_component"], "For every store and every order of python's sets, at all values of the endogenous variables that have positive probability.")

c("C79", "partial", ["C79_expressions_partial", "C79_same_cells", "C79_take_out", "C79_number_on_the_left", "C79_other_number", "C79_refused", "C79_example"], "Holds for expressions whose numbers are int or float and on the right of the operator; a number on the left, or of another type such as numpy.float64, raises AttributeError, and no expression containing one has a value.")

c("C80", "proved", ["C80_equation", "C80_equation_none", "C80_fill", "C80_fill_new", "C80_randomize", "C80_network", "C80_example", "C80_example_values", "C80_endogenous_refused", "C80_no_states", "C80_other_states"], "The generator is an argument: what it returns is any list of numbers (not negative, a non-zero one in each column) and any states. Exact numbers instead of floating point.")

c("C81", "partial", ["C81_single", "C81_likelihood_partial", "C81_generate", "C81_evidence", "C81_query", "C81_example", "C81_example_values", "C81_no_models", "C81_not_cast", "C81_impossible"], "Proved for models whose equations have been cast to tables (otherwise learning fails, C81_not_cast) and records that the equations can produce (C81_impossible). That the likelihood does not decrease is proved when the same columns are observed in all records (see C58). The generator, the order of sets and the comparison of tables are arguments; exact numbers instead of floating point. Bounds are those of the fitted models, not of all models compatible with the records.")

c("C82", "partial", ["C82_counterfactual_partial", "C82_necessity_partial", "C82_sufficiency_partial", "C82_necessity_sufficiency_partial", "C82_emcc_necessity_partial", "C82_emcc_sufficiency_partial", "C82_emcc_both_partial", "C82_current", "C82_interval", "C82_unset", "C82_stale", "C82_stale_example", "C82_example_values", "C82_example_list", "C82_example"], "Proved with the conditions of C43 and C46 on the intervened variables and the names of the copies. The last sentence is false: the states are looked up in the first model of the last compilation, so that a new object raises AttributeError (C82_unset) and an object that was given other models uses the states of the old ones (C82_stale, C82_stale_example).")

c("C83", "proved", ["C83_run", "C83_default", "C83_refuses", "C83_no_run", "C83_compare", "C83_maximum", "C83_improves", "C83_example_values", "C83_example_refused", "C84_example"], "The equations have been cast to tables. scipy's minimize is an argument: that it finds least objectives is a hypothesis, met in C84_example. Without run, step fails (C83_no_run). Names: no name is a part of that of a trainable variable (the code tests with the operator in, see C61_names). Exact numbers; the logarithm is the real one.")
c("C84", "partial", ["C84_single", "C84_generate", "C84_agree", "C84_query", "C84_necessity_partial", "C84_sufficiency_partial", "C84_necessity_sufficiency_partial", "C84_example", "C84_example_values", "C84_no_models", "C84_not_cast"], "Proved with the conditions of C83, and for the probabilities of causation those of C43 and C46 (see C82). The bounds are those of the models that are returned, not of all models of greatest likelihood.")

c("C85", "proved", ["C85_observation", "C85_exchange", "C85_deletion", "C85_adjustment", "C85_observation_example", "C85_exchange_example", "C85_deletion_example", "C85_adjustment_example", "C85_confounded"], "Structural causal models as in C42; conditions of non-zero probability; positivity P(x, z) > 0 for the adjustment. The third rule in its simple form (nothing is reached from the imposed variables). Without adjustment the numbers differ (C85_confounded). Exact numbers.")

c("C86", "partial", ["C86_rows_partial", "C86_count", "C86_refused", "C86_refused_example", "C86_caller", "C86_example", "C86_left_first", "C86_repeated", "C86_names", "C86_caller_example", "C86_names_refused", "C86_exact", "C86_exact_example"], "Exact in the names (C86_exact): with the left variable last an equation is built iff no other name is a part of its name. Proved for the left variable in the last column when no name of a column is a part of its name. False otherwise: with the left variable first the rows are sorted by its values and the wrong function is built (C86_left_first); a name that is part of the left name raises (C86_names). Repeated and missing configurations of the right total number are not noticed (C86_repeated).")

c("C87", "proved", ["C87_frequencies", "C87_effect", "C87_identified", "C87_optimiser", "C87_example"], "Conditions of C84 (equations cast to tables, one exogenous parent each, complete records, an optimiser that finds least objectives; C87_optimiser shows that there is one). Logarithms are real, probabilities in an ordered field embedded in the reals. Targets, X and Z are endogenous.")

c("C88", "partial", ["C88_save", "C88_refused", "C88_history", "C88_class", "C88_net_uai_partial", "C88_scm_uai_partial", "C88_net_bif_partial", "C88_scm_bif_partial", "C88_bif_order", "C88_scm_bif_refused", "C88_intervened_refused", "C88_parts", "C88_same_file", "C88_same_absolute", "C88_same_example"], "the formats under the conditions of C63, C64, C33 and C75; the BIF texts of pgmpy are parameters; BIF gives a wrong equation when the own variable is first")

c("C89", "partial", ["C89_intervention", "C89_frechet_partial", "C89_both_partial", "C89_necessity_partial", "C89_sufficiency_partial", "C89_monotone_partial", "C89_gdcc_intervention", "C89_gdcc_both_partial", "C89_gdcc_adjusted_partial", "C89_example_values", "C89_example", "C89_gdcc_example", "C89_monotone_example"], "Interventions in full; the probabilities of causation with the conditions of C46 on names and on the cause having a child; GDCC with the conditions of C84 and C87.")

c("C90", "proved", ["C90_refused", "C90_iff", "C90_causation_iff", "C90_example"],
  "Exact characterisation. Assumes that the imposed states exist and that no variable is named like a copy; refusals are proved for every evidence, answers for evidence of non-zero probability.")

c("C91", "proved", ["front_door", "C91_front_door", "C91_effect", "C91_identified", "C91_front_door_example", "units_front", "C91_example"], "The states of X and M must have non-zero probability (or frequency); otherwise a conditional of the formula is 0/0.")

c("C92", "proved", ["C92_box", "C92_cells", "C92_cell_in", "C92_distribution", "C92_record", "C92_example"], "Exact arithmetic; the numbers of the generator are arguments, taken to be independent and uniform in C92_distribution.")
c("C93", "proved", ["C93_build", "C93_exists", "C93_unique", "C93_causal", "C93_causal_build", "C93_example"], "Values in an exact field.")

c("C94", "proved", ["C94_causal_to_bnet", "C94_bnet_to_causal", "C94_net_round_trip", "C94_model_round_trip", "C94_holds", "C94_example", "C94_unset", "C94_unset_example"], "")
c("C95", "partial", ["C95_network", "C95_scm_text_fails", "C95_scm_text_named", "C95_holds", "C95_example"], "Exact: a network is rebuilt if and only if every variable has an arc. The code violates the property for isolated variables and for causal models whose endogenous variables are not named.")

c("C96", "partial", ["C96_sampled", "C96_distribution", "C96_columns", "C96_records_fail", "C96_example", "C96_det_example"], "Exact: a model is sampled if and only if it has no deterministic factors, and then its endogenous variables have their distribution. The code violates the property for deterministic factors and for as_pandas=False.")

c("C97", "proved", ["C97_counts_iff", "C97_needed", "C97_step_fails", "C97_run_fails", "C97_complete_fails", "C97_default", "C97_example", "C97_holds", "C97_counts_example"], "For all networks and data frames. The code fails on complete records, where the expected counts would be plain counts. The converse of C97_counts_iff needs possible records; that the step as a whole succeeds is C56.")

c("C98", "proved", ["C98_marginal", "C98_posterior", "C98_consistent", "C98_unbiased", "C98_answers", "C98_no_answer", "C98_example"], "The draws of numpy are modelled as independent uniform real numbers in [0, 1).")

c("C99", "partial", ["C99_table_partial", "C99_run_partial", "C99_converges", "C99_example", "C99_zero", "C99_two", "C99_mixed", "C99_frozen"], "Proved for hidden roots and records with the same observed columns: for one step and each table that is re-estimated (both directions), and for whole runs that learn one root from a positive prior. False without these conditions, with witnesses: a prior with a zero (C99_zero), two roots (C99_two), different observed columns (C99_mixed), and a variable that counts as converged while others still change (C99_frozen). Exact arithmetic over any Archimedean ordered field; the stopping rule accepts only equal tables.")

c("C100", "proved", ["C100_exact", "C100_dsep_nodes", "C100_blanket", "C100_query", "C100_example", "C100_observed_target"], "For sets that are disjoint. A target that is also evidence is reported as connected with its parents, though it is independent of them (C100_observed_target).")

c("C101", "partial", ["C101_rich", "C101_canonical_partial", "C101_default_store", "C101_interventional", "C101_counterfactual", "C101_causation", "C101_example"], "For the list, flat numpy and tree stores. With the default store canonical_deterministic raises for an endogenous variable without endogenous parents, and every model with endogenous variables has one (C101_default_store). Each endogenous variable has an exogenous parent of its own; C101_rich has no such condition.")

c("C102", "partial", ["C102_rich", "C102_canonical_partial", "C102_likelihood_partial", "C102_example"], "For the list, flat numpy and tree stores. With the default store canonical_deterministic raises for an endogenous variable without endogenous parents (C101_default_store). C102_rich has no such restriction.")

c("C103", "proved", ["C103_determined", "C103_effect", "C103_identified", "C103_example", "C103_two_models", "C103_confounded"], "")

c("C104", "proved", ["C104_undetermined", "C104_determined", "C104_exact", "C104_example"], "")

c("C105", "partial", ["C105_query", "C105_causal", "C105_counterfactual_partial", "C105_example", "C105_collision"], "Proved for conditional and causal queries. For counterfactual queries under the conditions of C43, and when the names of the copies are new after the renaming; otherwise it is false (C105_collision). Causal models: the renaming mentions the endogenous variables (C34). Exact numbers.")

c("C106", "proved", ["C106_states", "C106_empty", "C106_true_false", "C106_example"], "Names are strings; str.lower is a parameter of which C106_true_false uses that it keeps the lower-cased name followed by a number. In particular the numeric domains with the default first number are not recognised (C106_example).")
c("C107", "proved", ["C107_cells", "C107_back", "C107_refused", "C107_example"], "Shapes without the size -1.")

c("C108", "proved", ["C108_attained", "C108_attained_pair", "C108_exact", "C108_example", "C108_example_pair"], "The hypotheses say that the names of the copies of the variables are new (without it prob_necessity is wrong, see C46).")

c("C109", "proved", ["C109_disjoint", "C109_cover", "C109_pairs", "C109_length", "C109_get", "C109_kinds", "C109_example", "C109_kinds_example"], "An exogenous variable without children and exogenous parents is in no component (C109_cover).")
c("C110", "proved", ["C110_positions", "C110_labels", "C110_steps", "C110_example"], "")
c("C111", "proved", ["C111_accepted", "C111_refused", "C111_closed", "C111_copies", "C111_model", "C111_example"], "")

c("C112", "partial", ["C112_alone_partial", "C112_values_partial", "C112_write_partial", "C112_copy", "C112_intervention", "C112_intervened_partial", "C112_renamed_partial", "C112_example"],
  "False for in-place changes of tables after copy, to_multinomial and intervention, which share them with the original (C112_copy, C112_intervention: for all programs). Proved for all programs without in-place changes, and for those in which no other model refers to the changed table; renamed models and intervened variables have tables of their own.")

c("C113", "partial", ["C113_refused", "C113_combined", "C113_one_store", "C113_answered", "C113_answers_partial", "C113_exact", "C113_em_partial", "C113_em_refused", "C113_asked", "C113_learnt", "C113_example"],
  "False: factors of different stores cannot be combined (C113_refused), so a query is answered exactly when the tables that matter for it are kept in one store (C113_exact, both directions for all networks and elimination orders; then it is the posterior, C113_answers_partial), and a model outside the default store cannot be learnt (C113_em_refused). In one store, everything is as proved for that store (C113_one_store, C113_em_partial).")

c("C114", "proved", ["C114_marginal", "C114_chain", "C114_zero", "C114_order", "C114_condition", "C114_total", "C114_bayes", "C114_do_marginal", "C114_do_chain", "C114_do_order", "C114_asked", "C114_example"], "Evidence of non-zero probability (C40 says what happens otherwise); the last two rules need answers without zeros, since stores differ on 0/0 (C04).")

c("C115", "proved", ["C115_name", "C115_equation_name", "C115_kinds", "C115_table", "C115_equation", "C115_interval", "C115_network", "C115_causal", "C115_show", "C115_text", "C115_not_shown", "C115_network_text", "C115_comma"], "C115_not_shown and C115_comma are the limits: state names and middle values are not shown, and a comma in a name is read as a separator.")

c("C116", "proved", ["C116_envelope", "C116_same", "C116_union", "C116_restrict", "C116_query", "C116_add", "C116_tables", "C116_example", "C116_learnt"], "The values must be finite (C50_nan says what happens otherwise); C116_add is for an object that answers for its own models, which C51 shows may fail when lists are shared.")

c("C117", "proved", ["C117_worlds", "C117_composition", "C117_marginal", "C117_interventional", "C117_average", "C117_example", "C117_example_composition"], "For the queries that C43 shows to be answered (CfOk); C44 shows what happens to the others.")

c("C118", "partial", ["C118_operators_partial", "C118_answered", "C118_refused", "C118_exceptions", "C118_combine_all", "C118_few", "C118_pow", "C118_labels", "C118_type_error", "C118_not_product", "C118_wrong", "C118_example"], "The code violates it for a table on the left and an equation on the right (C118_wrong); everything else is proved.")

c("C119", "partial", ["C119_list", "C119_lists", "C119_exact", "C119_conditional", "C119_same", "C119_causal", "C119_counterfactual", "C119_frequency", "C119_separated", "C119_connected", "C119_dcon_partial", "C119_container_refused", "C119_not_string", "C119_tuple", "C119_asked", "C119_asked_graph", "C119_example"], "Holds for names that are strings in all queries; dcon_nodes refuses containers and names that are not strings are refused or taken apart, with witnesses.")

c("C120", "proved", ["C120_elapsed", "C120_refused", "C120_reading", "C120_one_watch", "C120_monotone", "C120_example"], "All sequences of calls of the class itself; exact arithmetic.")

c("C121", "proved", ["C121_text", "C121_same", "C121_every", "C121_refused", "C121_outside", "C121_linear", "C121_answered", "C121_example"], "Exact arithmetic. Components beyond 1 or negative give texts that are no colours (C121_outside).")

c("C122", "proved", ["C122_drawn", "C122_readable", "C122_refused", "C122_stranger", "C122_default", "C122_example"], "For graphs of networkx and endogenous lists of distinct nodes; others are refused (C122_stranger).")

if __name__ == "__main__":
    src = "\n".join(open(f).read() for f in glob.glob(ROOT + "/lean/Verif/Props/*.lean"))
    names = set(re.findall(r"^theorem\s+(\S+)", src, re.M))
    for x in C:
        for t in x["theorems"]:
            if t[len("Verif.Props."):] not in names:
                raise SystemExit(f"missing theorem {t}")
    used = {t.replace("Verif.Props.", "") for x in C for t in x["theorems"]}
    left = sorted(n for n in names if re.match(r"C\d\d_", n) and n not in used)
    if left: print("not in manifest:", left)
    json.dump({"claims": C}, open(ROOT + "/MANIFEST.json", "w"), indent=1)
    print(len(C), "claims")
