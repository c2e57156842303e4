{
 "claims": [
  {
   "property": "C01",
   "status": "proved",
   "theorems": [
    "Verif.Props.C01_product_pointwise"
   ],
   "note": "All four stores, shared variables having equal state lists."
  },
  {
   "property": "C02",
   "status": "partial",
   "theorems": [
    "Verif.Props.C02_label_pairing_partial",
    "Verif.Props.C02_numpy_violation",
    "Verif.Props.C02_numpy_by_place",
    "Verif.Props.C02_by_place_example",
    "Verif.Props.C02_exact",
    "Verif.Props.C02_exact_example"
   ],
   "note": "False for the default store (counterexample proved). Proved for list, numpy1d and treedict. For the default store it is proved what happens instead: values are paired by place of the states, whatever the labels, so that it is right exactly for domains that list the states of shared variables in the same order (C02_exact)."
  },
  {
   "property": "C03",
   "status": "proved",
   "theorems": [
    "Verif.Props.C03_sum_pointwise",
    "Verif.Props.C03_difference_pointwise",
    "Verif.Props.C03_scalar_operand"
   ],
   "note": "All four stores."
  },
  {
   "property": "C04",
   "status": "proved",
   "theorems": [
    "Verif.Props.C04_division_pointwise",
    "Verif.Props.C04_zero_over_zero"
   ],
   "note": "Exact field extended with nan and inf; 0/0=0 in the numpy store."
  },
  {
   "property": "C05",
   "status": "proved",
   "theorems": [
    "Verif.Props.C05_marginalize_sums",
    "Verif.Props.C05_marginalize_absent"
   ],
   "note": "All four stores."
  },
  {
   "property": "C06",
   "status": "proved",
   "theorems": [
    "Verif.Props.C06_maxmarginalize",
    "Verif.Props.C06_numpy1d_refuses"
   ],
   "note": "numpy, list and treedict; numpy1d raises."
  },
  {
   "property": "C07",
   "status": "proved",
   "theorems": [
    "Verif.Props.C07_restrict_conditions",
    "Verif.Props.C07_restrict_bad_state"
   ],
   "note": "All four stores."
  },
  {
   "property": "C08",
   "status": "partial",
   "theorems": [
    "Verif.Props.C08_list_restriction_partial",
    "Verif.Props.C08_violation_order",
    "Verif.Props.C08_violation_two_lists",
    "Verif.Props.C08_violation_axes",
    "Verif.Props.C08_one_list",
    "Verif.Props.C08_in_order",
    "Verif.Props.C08_out_of_order",
    "Verif.Props.C08_apart",
    "Verif.Props.C08_apart_example",
    "Verif.Props.C08_one_list_example",
    "Verif.Props.C08_two_lists",
    "Verif.Props.C08_no_lists"
   ],
   "note": "False in general (three counterexamples proved). What the default store does is characterised for every observation: no list of two or more states is the same as states; one list gives values by place in the list (right exactly when listed in domain order) if the observed variables are together; apart, it raises unless the cardinalities happen to match; two lists always raise."
  },
  {
   "property": "C09",
   "status": "proved",
   "theorems": [
    "Verif.Props.C09_store_independence"
   ],
   "note": "Induction on expressions; full trees."
  },
  {
   "property": "C10",
   "status": "proved",
   "theorems": [
    "Verif.Props.C10_read_after_writes"
   ],
   "note": "Any sequence of writes, all four stores."
  },
  {
   "property": "C11",
   "status": "proved",
   "theorems": [
    "Verif.Props.C11_index_of_state",
    "Verif.Props.C11_partial_observation"
   ],
   "note": ""
  },
  {
   "property": "C12",
   "status": "proved",
   "theorems": [
    "Verif.Props.C12_values_roundtrip",
    "Verif.Props.C12_wrong_length"
   ],
   "note": "All four stores."
  },
  {
   "property": "C13",
   "status": "proved",
   "theorems": [
    "Verif.Props.C13_values_array"
   ],
   "note": ""
  },
  {
   "property": "C14",
   "status": "proved",
   "theorems": [
    "Verif.Props.C14_rename"
   ],
   "note": ""
  },
  {
   "property": "C15",
   "status": "proved",
   "theorems": [
    "Verif.Props.C15_left_right_bookkeeping",
    "Verif.Props.C15_summed_out_is_one"
   ],
   "note": "All four stores."
  },
  {
   "property": "C16",
   "status": "proved",
   "theorems": [
    "Verif.Props.C16_to_multinomial",
    "Verif.Props.C16_column_sums"
   ],
   "note": ""
  },
  {
   "property": "C17",
   "status": "partial",
   "theorems": [
    "Verif.Props.C17_roundtrip_partial",
    "Verif.Props.C17_violation",
    "Verif.Props.C17_false",
    "Verif.Props.C17_exact",
    "Verif.Props.C17_exact_example"
   ],
   "note": "False: to_deterministic stores the argmax index, not the state. Proved: the round trip yields the index of the state, and is exact precisely when every state that is selected somewhere is its own index."
  },
  {
   "property": "C18",
   "status": "proved",
   "theorems": [
    "Verif.Props.C18_constant",
    "Verif.Props.C18_constant_bad_state",
    "Verif.Props.C18_constant_deterministic"
   ],
   "note": "Both factor classes."
  },
  {
   "property": "C19",
   "status": "partial",
   "theorems": [
    "Verif.Props.C19_canonical_partial",
    "Verif.Props.C19_violation_two_parents",
    "Verif.Props.C19_violation_no_parents",
    "Verif.Props.C19_numpy_refuses"
   ],
   "note": "False for the default store, which raises ValueError for every number of endogenous parents other than one. Proved for the other stores, and for the default store with one parent."
  },
  {
   "property": "C21",
   "status": "proved",
   "theorems": [
    "Verif.Props.C21_barren_nodes"
   ],
   "note": ""
  },
  {
   "property": "C23",
   "status": "proved",
   "theorems": [
    "Verif.Props.C23_markov_blanket",
    "Verif.Props.C23_markov_blanket_util"
   ],
   "note": ""
  },
  {
   "property": "C24",
   "status": "proved",
   "theorems": [
    "Verif.Props.C24_dsep_independence",
    "Verif.Props.C24_dsep_posterior"
   ],
   "note": ""
  },
  {
   "property": "C25",
   "status": "proved",
   "theorems": [
    "Verif.Props.C25_elimination_order"
   ],
   "note": ""
  },
  {
   "property": "C28",
   "status": "proved",
   "theorems": [
    "Verif.Props.C28_acyclic"
   ],
   "note": ""
  },
  {
   "property": "C31",
   "status": "proved",
   "theorems": [
    "Verif.Props.C31_intervention",
    "Verif.Props.C31_other_factors",
    "Verif.Props.C31_example",
    "Verif.Props.C31_unknown_ignored"
   ],
   "note": "Joint equals the truncated factorisation; names that are not variables are ignored by intervention."
  },
  {
   "property": "C32",
   "status": "proved",
   "theorems": [
    "Verif.Props.C32_compose",
    "Verif.Props.C32_commute",
    "Verif.Props.C32_idempotent"
   ],
   "note": "Equality of the resulting objects."
  },
  {
   "property": "C33",
   "status": "partial",
   "theorems": [
    "Verif.Props.C33_to_multinomial_partial",
    "Verif.Props.C33_to_bnet_partial",
    "Verif.Props.C33_exact",
    "Verif.Props.C33_roles_lost",
    "Verif.Props.C33_explicit_roles_lost",
    "Verif.Props.C33_root_not_cast",
    "Verif.Props.C33_exogenous_with_parents"
   ],
   "note": "False: to_multinomial forgets the classification of the variables, leaves deterministic roots as they are and fails for exogenous variables with parents (proved on examples). Proved when the endogenous variables are those with parents."
  },
  {
   "property": "C34",
   "status": "proved",
   "theorems": [
    "Verif.Props.C34_rename_causal",
    "Verif.Props.C34_rename_bnet",
    "Verif.Props.C34_endogenous_must_be_mapped",
    "Verif.Props.C34_unmapped_fails"
   ],
   "note": "Mapping injective on the variables; for causal models it must mention the endogenous ones, otherwise renaming fails (proved)."
  },
  {
   "property": "C36",
   "status": "proved",
   "theorems": [
    "Verif.Props.C36_exact_posterior"
   ],
   "note": "All four stores; exact arithmetic."
  },
  {
   "property": "C37",
   "status": "proved",
   "theorems": [
    "Verif.Props.C37_heuristic_irrelevant",
    "Verif.Props.C37_admissible"
   ],
   "note": "Any order chosen by the heuristic."
  },
  {
   "property": "C38",
   "status": "proved",
   "theorems": [
    "Verif.Props.C38_pruning"
   ],
   "note": ""
  },
  {
   "property": "C39",
   "status": "partial",
   "theorems": [
    "Verif.Props.C39_conditional_partial",
    "Verif.Props.C39_conditional_any_store",
    "Verif.Props.C39_sums_to_one",
    "Verif.Props.C39_pruned",
    "Verif.Props.C39_exact",
    "Verif.Props.C39_zero_evidence",
    "Verif.Props.C39_exact_example"
   ],
   "note": "Proved for evidence of non-zero probability. False without it: evidence that is impossible through a pruned-away node gives a non-zero answer (counterexample proved). Exact for the default store: the answer is the conditional distribution of the pruned network for all evidence (C39_pruned), right at a joint state if and only if P(c, e) is not zero or the pruned network gives the joint state probability zero (C39_exact)."
  },
  {
   "property": "C40",
   "status": "proved",
   "theorems": [
    "Verif.Props.C40_impossible_evidence"
   ],
   "note": ""
  },
  {
   "property": "C41",
   "status": "partial",
   "theorems": [
    "Verif.Props.C41_refused_partial",
    "Verif.Props.C41_exact",
    "Verif.Props.C41_exact_cond",
    "Verif.Props.C41_recorded",
    "Verif.Props.C41_history",
    "Verif.Props.C41_stale_answer",
    "Verif.Props.C41_repeated_conditional",
    "Verif.Props.C41_exact_example"
   ],
   "note": "False: a query refused for an unknown name overwrites the recorded target and evidence of a compiled object, whose run() then answers from the old pruned model, and conditional queries accept repeated targets (both proved). Proved: all other refusals. Exact: a query is answered if and only if its names are in order (C41_exact; C41_exact_cond for conditional queries without repeated targets); what a refused query leaves behind is its target and evidence and nothing else (C41_recorded), and no later query depends on it (C41_history)."
  },
  {
   "property": "C35",
   "status": "proved",
   "theorems": [
    "Verif.Props.C35_fused_joint",
    "Verif.Props.C35_fusion"
   ],
   "note": "Models that share the given roots and no other names (the code does not check this); the tables of the roots are those of the first model."
  },
  {
   "property": "C42",
   "status": "proved",
   "theorems": [
    "Verif.Props.C42_interventional",
    "Verif.Props.C42_unknown",
    "Verif.Props.C42_do_wins",
    "Verif.Props.C42_example"
   ],
   "note": "Evidence that contradicts the intervention is overwritten by it (C42_do_wins)."
  },
  {
   "property": "C43",
   "status": "partial",
   "theorems": [
    "Verif.Props.C43_counterfactual_partial",
    "Verif.Props.C43_one_world_partial",
    "Verif.Props.C43_name_collision",
    "Verif.Props.C43_example",
    "Verif.Props.C43_example_value"
   ],
   "note": "False when a variable has the name of a copy (wrong answer, proved). Proved for endogenous interventions with a child in their world, endogenous targets and new names."
  },
  {
   "property": "C44",
   "status": "partial",
   "theorems": [
    "Verif.Props.C44_answered_partial",
    "Verif.Props.C44_childless",
    "Verif.Props.C44_exogenous_do",
    "Verif.Props.C44_exogenous_target",
    "Verif.Props.C44_intervened_target"
   ],
   "note": "False: interventions on childless or exogenous variables fail (proved on examples here; exactly which queries are answered is C90). Proved for the other queries."
  },
  {
   "property": "C45",
   "status": "proved",
   "theorems": [
    "Verif.Props.C45_consistency",
    "Verif.Props.C45_example_value"
   ],
   "note": "For the queries that the code answers (see C44)."
  },
  {
   "property": "C46",
   "status": "partial",
   "theorems": [
    "Verif.Props.C46_necessity_partial",
    "Verif.Props.C46_sufficiency_partial",
    "Verif.Props.C46_necessity_sufficiency_partial",
    "Verif.Props.C46_range_partial",
    "Verif.Props.C46_identity_partial",
    "Verif.Props.C46_example",
    "Verif.Props.C46_childless"
   ],
   "note": "Values, range and identity proved for endogenous causes with a child; other causes fail (proved on an example here, for all models in C90)."
  },
  {
   "property": "C20",
   "status": "proved",
   "theorems": [
    "Verif.Props.C20_normalize_array",
    "Verif.Props.C20_random",
    "Verif.Props.C20_random_nonzero",
    "Verif.Props.C20_uniform",
    "Verif.Props.C20_zero_column"
   ],
   "note": "All shapes, axes and draws with non-zero column sums; a zero column gives nan (proved on an example)."
  },
  {
   "property": "C22",
   "status": "partial",
   "theorems": [
    "Verif.Props.C22_roundtrip_partial",
    "Verif.Props.C22_single_node",
    "Verif.Props.C22_isolated_lost",
    "Verif.Props.C22_exact",
    "Verif.Props.C22_empty"
   ],
   "note": "Holds exactly for graphs of two or more nodes in which every node has an edge: isolated nodes are lost by str2dag, and graphs of one node or none cannot be read."
  },
  {
   "property": "C47",
   "status": "partial",
   "theorems": [
    "Verif.Props.C47_the_states",
    "Verif.Props.C47_refused",
    "Verif.Props.C47_order_partial",
    "Verif.Props.C47_exact",
    "Verif.Props.C47_exact_list",
    "Verif.Props.C47_case",
    "Verif.Props.C47_examples",
    "Verif.Props.C47_exact_example"
   ],
   "note": "Order independence exact: it fails if and only if the two states are different strings with the same lower-case form, that of the name followed by 0, 1 or 2 (C47_exact, C47_exact_list; C47_case is a witness); other parts proved in full."
  },
  {
   "property": "C70",
   "status": "proved",
   "theorems": [
    "Verif.Props.C70_powerset"
   ],
   "note": ""
  },
  {
   "property": "C26",
   "status": "partial",
   "theorems": [
    "Verif.Props.C26_histories",
    "Verif.Props.C26_constructed",
    "Verif.Props.C26_constructed_dict",
    "Verif.Props.C26_refused_partial",
    "Verif.Props.C26_unknown_name",
    "Verif.Props.C26_accepted"
   ],
   "note": "The invariant holds for all histories of calls. Refusals are ValueError for the nodes of the graph; for a name that is not a node the code raises NetworkXError (C26_unknown_name)."
  },
  {
   "property": "C27",
   "status": "partial",
   "theorems": [
    "Verif.Props.C27_topological_partial",
    "Verif.Props.C27_child_first",
    "Verif.Props.C27_parent_first",
    "Verif.Props.C27_state_order",
    "Verif.Props.C27_built",
    "Verif.Props.C27_exact",
    "Verif.Props.C27_orders",
    "Verif.Props.C27_exact_example"
   ],
   "note": "The property is false for some orders: C27_child_first constructs a model whose two tables have different states for the same variable; C27_state_order shows that only sets of states are compared. Proved for orders in which parents come first. Exact for all orders: tables are accepted iff each fits its node and agrees with those before it (C27_built); the model is consistent iff each also agrees with those after it (C27_exact), iff the tables are accepted in every order (C27_orders)."
  },
  {
   "property": "C29",
   "status": "proved",
   "theorems": [
    "Verif.Props.C29_prob",
    "Verif.Props.C29_total",
    "Verif.Props.C29_prob_total",
    "Verif.Props.C29_ancestral",
    "Verif.Props.C29_example"
   ],
   "note": ""
  },
  {
   "property": "C30",
   "status": "proved",
   "theorems": [
    "Verif.Props.C30_sampling",
    "Verif.Props.C30_no_samples",
    "Verif.Props.C30_example"
   ],
   "note": "The generator is an arbitrary family of numbers in [0, 1), the order any topological order. n must be at least 1: n = 0 is refused."
  },
  {
   "property": "C62",
   "status": "partial",
   "theorems": [
    "Verif.Props.C62_single_partial",
    "Verif.Props.C62_exact",
    "Verif.Props.C62_parts",
    "Verif.Props.C62_list",
    "Verif.Props.C62_substring",
    "Verif.Props.C62_exact_example"
   ],
   "note": "The property is false: with a single name the code tests substrings (C62_substring). It holds exactly for names of which no other name is a substring (C62_exact, both directions)."
  },
  {
   "property": "C66",
   "status": "proved",
   "theorems": [
    "Verif.Props.C66_disjoint",
    "Verif.Props.C66_cover",
    "Verif.Props.C66_together",
    "Verif.Props.C66_minimal",
    "Verif.Props.C66_get",
    "Verif.Props.C66_example",
    "Verif.Props.C66_omitted"
   ],
   "note": "C66_omitted: endogenous variables without exogenous parent are in no component."
  },
  {
   "property": "C67",
   "status": "partial",
   "theorems": [
    "Verif.Props.C67_contains",
    "Verif.Props.C67_acyclic_partial",
    "Verif.Props.C67_markovian_partial",
    "Verif.Props.C67_cyclic",
    "Verif.Props.C67_exact",
    "Verif.Props.C67_built",
    "Verif.Props.C67_exact_example"
   ],
   "note": "Acyclicity is false in general: C67_cyclic gives a semi-Markovian model whose graph has a cycle for every topological order. Proved when outside parents of a component come before its members, and for Markovian models. Exact: the graph is acyclic, and the network is built, iff some order of the endogenous variables suits it (C67_exact, C67_built)."
  },
  {
   "property": "C50",
   "status": "proved",
   "theorems": [
    "Verif.Props.C50_envelope",
    "Verif.Props.C50_restrict",
    "Verif.Props.C50_pair",
    "Verif.Props.C50_scalars",
    "Verif.Props.C50_refused",
    "Verif.Props.C50_example",
    "Verif.Props.C50_nan"
   ],
   "note": "For finite values (C50_nan shows what nan does)."
  },
  {
   "property": "C51",
   "status": "partial",
   "theorems": [
    "Verif.Props.C51_current_partial",
    "Verif.Props.C51_shared",
    "Verif.Props.C51_caller_list",
    "Verif.Props.C51_emcc"
   ],
   "note": "False when two objects share a list (C51_shared) and for EMCC, which replaces models that were set (C51_emcc). Proved for histories in which no list held by another object is changed."
  },
  {
   "property": "C52",
   "status": "proved",
   "theorems": [
    "Verif.Props.C52_incremental",
    "Verif.Props.C52_final",
    "Verif.Props.C52_zero"
   ],
   "note": "The final number of models exceeds num_runs by less than step when step does not divide what is missing."
  },
  {
   "property": "C53",
   "status": "partial",
   "theorems": [
    "Verif.Props.C53_sequential",
    "Verif.Props.C53_parallel_partial",
    "Verif.Props.C53_parallel",
    "Verif.Props.C53_refused",
    "Verif.Props.C53_exact",
    "Verif.Props.C53_exact_distinct",
    "Verif.Props.C53_exact_example"
   ],
   "note": "False with threads (C53_parallel). Proved without threads; with threads objects and models agree up to order; C53_exact says exactly when they correspond."
  },
  {
   "property": "C48",
   "status": "proved",
   "theorems": [
    "Verif.Props.C48_frequency",
    "Verif.Props.C48_conditional",
    "Verif.Props.C48_no_records",
    "Verif.Props.C48_missing"
   ],
   "note": "For complete data within the domains with a matching record; without one the query raises ZeroDivisionError (C48_no_records); C48_missing shows what happens with missing values."
  },
  {
   "property": "C57",
   "status": "partial",
   "theorems": [
    "Verif.Props.C57_weights_partial",
    "Verif.Props.C57_at_least",
    "Verif.Props.C57_answered",
    "Verif.Props.C57_exact",
    "Verif.Props.C57_double",
    "Verif.Props.C57_empty",
    "Verif.Props.C57_exact_example",
    "Verif.Props.C57_apart"
   ],
   "note": "False with different missing values in different records (C57_double) and for records without a relevant observation (C57_empty). Exact: there are weights if and only if every record has a relevant observation (C57_answered), and they add up to the number of records if and only if no record agrees with the pattern of another that is not its own (C57_exact); so when all records miss the same columns."
  },
  {
   "property": "C60",
   "status": "proved",
   "theorems": [
    "Verif.Props.C60_first",
    "Verif.Props.C60_exactly_once",
    "Verif.Props.C60_patterns"
   ],
   "note": "Equality of patterns is equality of python dictionaries."
  },
  {
   "property": "C54",
   "status": "partial",
   "theorems": [
    "Verif.Props.C54_loop",
    "Verif.Props.C54_first_run",
    "Verif.Props.C54_unlimited",
    "Verif.Props.C54_function",
    "Verif.Props.C54_second_run"
   ],
   "note": "Any learner. True for the first run of an object; a second run keeps the models of the first (witness), so the evolution then is the old one followed by the new models (C54_loop)."
  },
  {
   "property": "C55",
   "status": "partial",
   "theorems": [
    "Verif.Props.C55_no_learning",
    "Verif.Props.C55_second_run",
    "Verif.Props.C55_stops_early",
    "Verif.Props.C55_first_step_partial"
   ],
   "note": "False of the code: the set of converged variables survives a run, so once all trainable variables have converged every later run returns the prior whatever its data (C55_no_learning, for all networks, data and bounds; C55_second_run is a witness). Even with nothing converged the second run may stop after one step, because its first model is compared with the last model of the first run (C55_stops_early). What holds: with nothing converged the second run starts as a fresh one, up to and including its first step."
  },
  {
   "property": "C56",
   "status": "proved",
   "theorems": [
    "Verif.Props.C56_run",
    "Verif.Props.C56_unbounded",
    "Verif.Props.C56_history",
    "Verif.Props.C56_example"
   ],
   "note": "For trainable variables that are roots and never observed (the exogenous variables), any stopping rule, any admissible order and set iteration, any history of runs; records must be possible under the prior and in each something must be observed that is not separated from the trainable variable (else the query has no evidence)."
  },
  {
   "property": "C59",
   "status": "partial",
   "theorems": [
    "Verif.Props.C59_counts",
    "Verif.Props.C59_own_configuration_partial",
    "Verif.Props.C59_broadcast",
    "Verif.Props.C59_other_configurations",
    "Verif.Props.C59_observed_parent",
    "Verif.Props.C59_exact",
    "Verif.Props.C59_exact_example"
   ],
   "note": "C59_exact says exactly when it holds: whatever is observed of a variable and its parents has one state only. False of the code: the posterior has no axis for the observed parents and is broadcast over all their configurations (C59_broadcast for all networks; C59_observed_parent is a witness, C59_other_configurations says that the count is strictly too large). Proved when neither the variable nor a parent is observed."
  },
  {
   "property": "C58",
   "status": "partial",
   "theorems": [
    "Verif.Props.C58_step_partial",
    "Verif.Props.C58_run_partial",
    "Verif.Props.C58_end_partial",
    "Verif.Props.C58_mixed",
    "Verif.Props.C58_run_example",
    "Verif.Props.C58_example"
   ],
   "note": "Exact arithmetic over any Archimedean ordered field, hidden roots (the exogenous variables of causal models), and the same columns observed in all records: a step does not lower the likelihood, and neither does a whole run. Without the last condition the statement is false (C58_mixed): a record with missing values also counts the records that agree with it."
  },
  {
   "property": "C71",
   "status": "partial",
   "theorems": [
    "Verif.Props.C71_incomplete_observation",
    "Verif.Props.C71_completed"
   ],
   "note": "The statement is false; the theorem says for each of the four stores what is returned: the first matching cell (list, numpy1d, numpy with one variable left), or an array or dictionary instead of a number (numpy with more variables left, treedict)."
  },
  {
   "property": "C72",
   "status": "proved",
   "theorems": [
    "Verif.Props.C72_hidden_blanket",
    "Verif.Props.C72_nothing_hidden"
   ],
   "note": "Independence holds for all observed variables outside the result together. The result also contains hidden variables that are connected to the target."
  },
  {
   "property": "C73",
   "status": "proved",
   "theorems": [
    "Verif.Props.C73_minimal_observations"
   ],
   "note": "For records of positive probability that do not observe the target."
  },
  {
   "property": "C63",
   "status": "partial",
   "theorems": [
    "Verif.Props.C63_round_trip_partial",
    "Verif.Props.C63_joint",
    "Verif.Props.C63_names_small",
    "Verif.Props.C63_isolated",
    "Verif.Props.C63_names",
    "Verif.Props.C63_exponent",
    "Verif.Props.C63_indices"
   ],
   "note": "proved for networks in which every variable has an arc, no written name of a parent is contained in the one of its child and all probabilities are printed without exponent; false otherwise, with a witness for each condition"
  },
  {
   "property": "C65",
   "status": "partial",
   "theorems": [
    "Verif.Props.C65_table_partial",
    "Verif.Props.C65_exact",
    "Verif.Props.C65_raises",
    "Verif.Props.C65_first",
    "Verif.Props.C65_order",
    "Verif.Props.C65_first_example"
   ],
   "note": "for factors whose variable comes last, exact: exported, and then correctly, if and only if there is at most one parent or the first parent has as many states as the variable (C65_exact); with the variable before its parent the matrix is transposed, which is right exactly for symmetric tables (C65_first); C65_order is a witness"
  },
  {
   "property": "C75",
   "status": "partial",
   "theorems": [
    "Verif.Props.C75_import",
    "Verif.Props.C75_export_partial",
    "Verif.Props.C75_net_partial",
    "Verif.Props.C75_round_trip_partial",
    "Verif.Props.C75_isolated",
    "Verif.Props.C75_unset"
   ],
   "note": "the import is proved for all tables; the round trip for networks in which every variable has an arc and the export of every factor is right (C65); an isolated variable is lost (C75_isolated); the constructor and get_value of pgmpy are modelled from their documentation"
  },
  {
   "property": "C64",
   "status": "partial",
   "theorems": [
    "Verif.Props.C64_round_trip_partial",
    "Verif.Props.C64_labels",
    "Verif.Props.C64_constant",
    "Verif.Props.C64_isolated",
    "Verif.Props.C64_exponent"
   ],
   "note": "Writing and reading keeps graph, endogenous variables, equations and exogenous tables, up to the renaming, for connected models with printable numbers whose endogenous variables are the ones with parents. It fails for uncast equations whose states are not 0, 1, ..., constants, isolated variables and numbers printed with an exponent."
  },
  {
   "property": "C74",
   "status": "partial",
   "theorems": [
    "Verif.Props.C74_type_error",
    "Verif.Props.C74_keywords_partial"
   ],
   "note": "submodel raises a TypeError on every model because the arguments of builder are given by position. With keyword arguments the result would be the marginal network."
  },
  {
   "property": "C68",
   "status": "proved",
   "theorems": [
    "Verif.Props.C68_tree",
    "Verif.Props.C68_store",
    "Verif.Props.C68_no_lookup",
    "Verif.Props.C68_copy_constant",
    "Verif.Props.C68_copy_node",
    "Verif.Props.C68_negative_end",
    "Verif.Props.C68_negative",
    "Verif.Props.C68_default"
   ],
   "note": "The tree built from a non-negative table has the values of the table, read off with is_on_left; get_value and all other operations are not implemented in the code. Found besides: copies of constant stores, default data for several variables and negative ends are refused."
  },
  {
   "property": "C76",
   "status": "partial",
   "theorems": [
    "Verif.Props.C76_last_split",
    "Verif.Props.C76_not_best"
   ],
   "note": "Does not hold: info_max is never updated, so the last splittable variable is always chosen; proved for all tables, with a table on which another split has more information."
  },
  {
   "property": "C69",
   "status": "partial",
   "theorems": [
    "Verif.Props.C69_arrays",
    "Verif.Props.C69_arrays_write",
    "Verif.Props.C69_trees_partial",
    "Verif.Props.C69_tree_same_node",
    "Verif.Props.C69_tree_shares",
    "Verif.Props.C69_tree_shares_back",
    "Verif.Props.C69_shallow"
   ],
   "note": "Holds for the three array stores in every program (one-dimensional arrays: without copy(deep=False)). For trees proved when every written store was made by the constructor or copy() and has not lent nodes; without that it fails, with witnesses in both directions."
  },
  {
   "property": "C61",
   "status": "partial",
   "theorems": [
    "Verif.Props.C61_built",
    "Verif.Props.C61_objective_partial",
    "Verif.Props.C61_childless",
    "Verif.Props.C61_not_counted",
    "Verif.Props.C61_order",
    "Verif.Props.C61_decomposes",
    "Verif.Props.C61_total",
    "Verif.Props.C61_updated",
    "Verif.Props.C61_deterministic",
    "Verif.Props.C61_two_parents",
    "Verif.Props.C61_names"
   ],
   "note": "Proved for models with tables (cast equations): the objective is minus the sum over the counted records of log sum_u theta_u prod P(v|pa), infinite exactly when a counted record is impossible; smaller objective = larger likelihood; over all exogenous variables the objectives add up to minus the log-likelihood of the model. Witnesses: deterministic factors give a KeyError, two exogenous parents are given the same state, records with missing values are left out, and a variable whose name contains another name cannot be updated. The optimiser of scipy is a parameter."
  },
  {
   "property": "C49",
   "status": "partial",
   "theorems": [
    "Verif.Props.C49_empirical",
    "Verif.Props.C49_model",
    "Verif.Props.C49_impossible",
    "Verif.Props.C49_missing_value",
    "Verif.Props.C49_bound",
    "Verif.Props.C49_any_network",
    "Verif.Props.C49_max_partial",
    "Verif.Props.C49_no_exogenous_parent",
    "Verif.Props.C49_deterministic",
    "Verif.Props.C49_no_records",
    "Verif.Props.C49_missing"
   ],
   "note": "max_log_likelihood is the likelihood with the relative frequencies, and it is at least the one of any network over the decomposition graph and the log_likelihood of any model with the same graph, for every store, every order of python's sets and every selection of variables. Needed: complete non-empty data, an acyclic decomposition graph (C67), an exogenous parent for each endogenous variable, equations given as tables, and records that are possible. Witnesses show what the code does without each of these."
  },
  {
   "property": "C77",
   "status": "proved",
   "theorems": [
    "Verif.Props.C77_factorisation",
    "Verif.Props.C77_log_likelihood",
    "Verif.Props.C77_impossible",
    "Verif.Props.C77_exogenous_child"
   ],
   "note": "For every logarithm (log(xy) = log x + log y on positive numbers), every store and every order of python's sets; equations as tables (C49_deterministic says what happens otherwise) and records of positive probability (C77_impossible: ValueError with arrays). C77_exogenous_child: a model with an exogenous variable caused by an endogenous one is accepted and the factorisation fails. C67_cyclic, C49_no_exogenous_parent: what happens without the other two conditions."
  },
  {
   "property": "C78",
   "status": "proved",
   "theorems": [
    "Verif.Props.C78_component"
   ],
   "note": "For every store and every order of python's sets, at all values of the endogenous variables that have positive probability."
  },
  {
   "property": "C79",
   "status": "partial",
   "theorems": [
    "Verif.Props.C79_expressions_partial",
    "Verif.Props.C79_same_cells",
    "Verif.Props.C79_take_out",
    "Verif.Props.C79_number_on_the_left",
    "Verif.Props.C79_other_number",
    "Verif.Props.C79_refused",
    "Verif.Props.C79_example"
   ],
   "note": "Holds for expressions whose numbers are int or float and on the right of the operator; a number on the left, or of another type such as numpy.float64, raises AttributeError, and no expression containing one has a value."
  },
  {
   "property": "C80",
   "status": "proved",
   "theorems": [
    "Verif.Props.C80_equation",
    "Verif.Props.C80_equation_none",
    "Verif.Props.C80_fill",
    "Verif.Props.C80_fill_new",
    "Verif.Props.C80_randomize",
    "Verif.Props.C80_network",
    "Verif.Props.C80_example",
    "Verif.Props.C80_example_values",
    "Verif.Props.C80_endogenous_refused",
    "Verif.Props.C80_no_states",
    "Verif.Props.C80_other_states"
   ],
   "note": "The generator is an argument: what it returns is any list of numbers (not negative, a non-zero one in each column) and any states. Exact numbers instead of floating point."
  },
  {
   "property": "C81",
   "status": "partial",
   "theorems": [
    "Verif.Props.C81_single",
    "Verif.Props.C81_likelihood_partial",
    "Verif.Props.C81_generate",
    "Verif.Props.C81_evidence",
    "Verif.Props.C81_query",
    "Verif.Props.C81_example",
    "Verif.Props.C81_example_values",
    "Verif.Props.C81_no_models",
    "Verif.Props.C81_not_cast",
    "Verif.Props.C81_impossible"
   ],
   "note": "Proved for models whose equations have been cast to tables (otherwise learning fails, C81_not_cast) and records that the equations can produce (C81_impossible). That the likelihood does not decrease is proved when the same columns are observed in all records (see C58). The generator, the order of sets and the comparison of tables are arguments; exact numbers instead of floating point. Bounds are those of the fitted models, not of all models compatible with the records."
  },
  {
   "property": "C82",
   "status": "partial",
   "theorems": [
    "Verif.Props.C82_counterfactual_partial",
    "Verif.Props.C82_necessity_partial",
    "Verif.Props.C82_sufficiency_partial",
    "Verif.Props.C82_necessity_sufficiency_partial",
    "Verif.Props.C82_emcc_necessity_partial",
    "Verif.Props.C82_emcc_sufficiency_partial",
    "Verif.Props.C82_emcc_both_partial",
    "Verif.Props.C82_current",
    "Verif.Props.C82_interval",
    "Verif.Props.C82_unset",
    "Verif.Props.C82_stale",
    "Verif.Props.C82_stale_example",
    "Verif.Props.C82_example_values",
    "Verif.Props.C82_example_list",
    "Verif.Props.C82_example"
   ],
   "note": "Proved with the conditions of C43 and C46 on the intervened variables and the names of the copies. The last sentence is false: the states are looked up in the first model of the last compilation, so that a new object raises AttributeError (C82_unset) and an object that was given other models uses the states of the old ones (C82_stale, C82_stale_example)."
  },
  {
   "property": "C83",
   "status": "proved",
   "theorems": [
    "Verif.Props.C83_run",
    "Verif.Props.C83_default",
    "Verif.Props.C83_refuses",
    "Verif.Props.C83_no_run",
    "Verif.Props.C83_compare",
    "Verif.Props.C83_maximum",
    "Verif.Props.C83_improves",
    "Verif.Props.C83_example_values",
    "Verif.Props.C83_example_refused",
    "Verif.Props.C84_example"
   ],
   "note": "The equations have been cast to tables. scipy's minimize is an argument: that it finds least objectives is a hypothesis, met in C84_example. Without run, step fails (C83_no_run). Names: no name is a part of that of a trainable variable (the code tests with the operator in, see C61_names). Exact numbers; the logarithm is the real one."
  },
  {
   "property": "C84",
   "status": "partial",
   "theorems": [
    "Verif.Props.C84_single",
    "Verif.Props.C84_generate",
    "Verif.Props.C84_agree",
    "Verif.Props.C84_query",
    "Verif.Props.C84_necessity_partial",
    "Verif.Props.C84_sufficiency_partial",
    "Verif.Props.C84_necessity_sufficiency_partial",
    "Verif.Props.C84_example",
    "Verif.Props.C84_example_values",
    "Verif.Props.C84_no_models",
    "Verif.Props.C84_not_cast"
   ],
   "note": "Proved with the conditions of C83, and for the probabilities of causation those of C43 and C46 (see C82). The bounds are those of the models that are returned, not of all models of greatest likelihood."
  },
  {
   "property": "C85",
   "status": "proved",
   "theorems": [
    "Verif.Props.C85_observation",
    "Verif.Props.C85_exchange",
    "Verif.Props.C85_deletion",
    "Verif.Props.C85_adjustment",
    "Verif.Props.C85_observation_example",
    "Verif.Props.C85_exchange_example",
    "Verif.Props.C85_deletion_example",
    "Verif.Props.C85_adjustment_example",
    "Verif.Props.C85_confounded"
   ],
   "note": "Structural causal models as in C42; conditions of non-zero probability; positivity P(x, z) > 0 for the adjustment. The third rule in its simple form (nothing is reached from the imposed variables). Without adjustment the numbers differ (C85_confounded). Exact numbers."
  },
  {
   "property": "C86",
   "status": "partial",
   "theorems": [
    "Verif.Props.C86_rows_partial",
    "Verif.Props.C86_count",
    "Verif.Props.C86_refused",
    "Verif.Props.C86_refused_example",
    "Verif.Props.C86_caller",
    "Verif.Props.C86_example",
    "Verif.Props.C86_left_first",
    "Verif.Props.C86_repeated",
    "Verif.Props.C86_names",
    "Verif.Props.C86_caller_example",
    "Verif.Props.C86_names_refused",
    "Verif.Props.C86_exact",
    "Verif.Props.C86_exact_example"
   ],
   "note": "Exact in the names (C86_exact): with the left variable last an equation is built iff no other name is a part of its name. Proved for the left variable in the last column when no name of a column is a part of its name. False otherwise: with the left variable first the rows are sorted by its values and the wrong function is built (C86_left_first); a name that is part of the left name raises (C86_names). Repeated and missing configurations of the right total number are not noticed (C86_repeated)."
  },
  {
   "property": "C87",
   "status": "proved",
   "theorems": [
    "Verif.Props.C87_frequencies",
    "Verif.Props.C87_effect",
    "Verif.Props.C87_identified",
    "Verif.Props.C87_optimiser",
    "Verif.Props.C87_example"
   ],
   "note": "Conditions of C84 (equations cast to tables, one exogenous parent each, complete records, an optimiser that finds least objectives; C87_optimiser shows that there is one). Logarithms are real, probabilities in an ordered field embedded in the reals. Targets, X and Z are endogenous."
  },
  {
   "property": "C88",
   "status": "partial",
   "theorems": [
    "Verif.Props.C88_save",
    "Verif.Props.C88_refused",
    "Verif.Props.C88_history",
    "Verif.Props.C88_class",
    "Verif.Props.C88_net_uai_partial",
    "Verif.Props.C88_scm_uai_partial",
    "Verif.Props.C88_net_bif_partial",
    "Verif.Props.C88_scm_bif_partial",
    "Verif.Props.C88_bif_order",
    "Verif.Props.C88_scm_bif_refused",
    "Verif.Props.C88_intervened_refused",
    "Verif.Props.C88_parts",
    "Verif.Props.C88_same_file",
    "Verif.Props.C88_same_absolute",
    "Verif.Props.C88_same_example"
   ],
   "note": "the formats under the conditions of C63, C64, C33 and C75; the BIF texts of pgmpy are parameters; BIF gives a wrong equation when the own variable is first"
  },
  {
   "property": "C89",
   "status": "partial",
   "theorems": [
    "Verif.Props.C89_intervention",
    "Verif.Props.C89_frechet_partial",
    "Verif.Props.C89_both_partial",
    "Verif.Props.C89_necessity_partial",
    "Verif.Props.C89_sufficiency_partial",
    "Verif.Props.C89_monotone_partial",
    "Verif.Props.C89_gdcc_intervention",
    "Verif.Props.C89_gdcc_both_partial",
    "Verif.Props.C89_gdcc_adjusted_partial",
    "Verif.Props.C89_example_values",
    "Verif.Props.C89_example",
    "Verif.Props.C89_gdcc_example",
    "Verif.Props.C89_monotone_example"
   ],
   "note": "Interventions in full; the probabilities of causation with the conditions of C46 on names and on the cause having a child; GDCC with the conditions of C84 and C87."
  },
  {
   "property": "C90",
   "status": "proved",
   "theorems": [
    "Verif.Props.C90_refused",
    "Verif.Props.C90_iff",
    "Verif.Props.C90_causation_iff",
    "Verif.Props.C90_example"
   ],
   "note": "Exact characterisation. Assumes that the imposed states exist and that no variable is named like a copy; refusals are proved for every evidence, answers for evidence of non-zero probability."
  },
  {
   "property": "C91",
   "status": "proved",
   "theorems": [
    "Verif.Props.front_door",
    "Verif.Props.C91_front_door",
    "Verif.Props.C91_effect",
    "Verif.Props.C91_identified",
    "Verif.Props.C91_front_door_example",
    "Verif.Props.units_front",
    "Verif.Props.C91_example"
   ],
   "note": "The states of X and M must have non-zero probability (or frequency); otherwise a conditional of the formula is 0/0."
  },
  {
   "property": "C92",
   "status": "proved",
   "theorems": [
    "Verif.Props.C92_box",
    "Verif.Props.C92_cells",
    "Verif.Props.C92_cell_in",
    "Verif.Props.C92_distribution",
    "Verif.Props.C92_record",
    "Verif.Props.C92_example"
   ],
   "note": "Exact arithmetic; the numbers of the generator are arguments, taken to be independent and uniform in C92_distribution."
  },
  {
   "property": "C93",
   "status": "proved",
   "theorems": [
    "Verif.Props.C93_build",
    "Verif.Props.C93_exists",
    "Verif.Props.C93_unique",
    "Verif.Props.C93_causal",
    "Verif.Props.C93_causal_build",
    "Verif.Props.C93_example"
   ],
   "note": "Values in an exact field."
  },
  {
   "property": "C94",
   "status": "proved",
   "theorems": [
    "Verif.Props.C94_causal_to_bnet",
    "Verif.Props.C94_bnet_to_causal",
    "Verif.Props.C94_net_round_trip",
    "Verif.Props.C94_model_round_trip",
    "Verif.Props.C94_holds",
    "Verif.Props.C94_example",
    "Verif.Props.C94_unset",
    "Verif.Props.C94_unset_example"
   ],
   "note": ""
  },
  {
   "property": "C95",
   "status": "partial",
   "theorems": [
    "Verif.Props.C95_network",
    "Verif.Props.C95_scm_text_fails",
    "Verif.Props.C95_scm_text_named",
    "Verif.Props.C95_holds",
    "Verif.Props.C95_example"
   ],
   "note": "Exact: a network is rebuilt if and only if every variable has an arc. The code violates the property for isolated variables and for causal models whose endogenous variables are not named."
  },
  {
   "property": "C96",
   "status": "partial",
   "theorems": [
    "Verif.Props.C96_sampled",
    "Verif.Props.C96_distribution",
    "Verif.Props.C96_columns",
    "Verif.Props.C96_records_fail",
    "Verif.Props.C96_example",
    "Verif.Props.C96_det_example"
   ],
   "note": "Exact: a model is sampled if and only if it has no deterministic factors, and then its endogenous variables have their distribution. The code violates the property for deterministic factors and for as_pandas=False."
  },
  {
   "property": "C97",
   "status": "proved",
   "theorems": [
    "Verif.Props.C97_counts_iff",
    "Verif.Props.C97_needed",
    "Verif.Props.C97_step_fails",
    "Verif.Props.C97_run_fails",
    "Verif.Props.C97_complete_fails",
    "Verif.Props.C97_default",
    "Verif.Props.C97_example",
    "Verif.Props.C97_holds",
    "Verif.Props.C97_counts_example"
   ],
   "note": "For all networks and data frames. The code fails on complete records, where the expected counts would be plain counts. The converse of C97_counts_iff needs possible records; that the step as a whole succeeds is C56."
  },
  {
   "property": "C98",
   "status": "proved",
   "theorems": [
    "Verif.Props.C98_marginal",
    "Verif.Props.C98_posterior",
    "Verif.Props.C98_consistent",
    "Verif.Props.C98_unbiased",
    "Verif.Props.C98_answers",
    "Verif.Props.C98_no_answer",
    "Verif.Props.C98_example"
   ],
   "note": "The draws of numpy are modelled as independent uniform real numbers in [0, 1)."
  },
  {
   "property": "C99",
   "status": "partial",
   "theorems": [
    "Verif.Props.C99_table_partial",
    "Verif.Props.C99_run_partial",
    "Verif.Props.C99_converges",
    "Verif.Props.C99_example",
    "Verif.Props.C99_zero",
    "Verif.Props.C99_two",
    "Verif.Props.C99_mixed",
    "Verif.Props.C99_frozen"
   ],
   "note": "Proved for hidden roots and records with the same observed columns: for one step and each table that is re-estimated (both directions), and for whole runs that learn one root from a positive prior. False without these conditions, with witnesses: a prior with a zero (C99_zero), two roots (C99_two), different observed columns (C99_mixed), and a variable that counts as converged while others still change (C99_frozen). Exact arithmetic over any Archimedean ordered field; the stopping rule accepts only equal tables."
  },
  {
   "property": "C100",
   "status": "proved",
   "theorems": [
    "Verif.Props.C100_exact",
    "Verif.Props.C100_dsep_nodes",
    "Verif.Props.C100_blanket",
    "Verif.Props.C100_query",
    "Verif.Props.C100_example",
    "Verif.Props.C100_observed_target"
   ],
   "note": "For sets that are disjoint. A target that is also evidence is reported as connected with its parents, though it is independent of them (C100_observed_target)."
  },
  {
   "property": "C101",
   "status": "partial",
   "theorems": [
    "Verif.Props.C101_rich",
    "Verif.Props.C101_canonical_partial",
    "Verif.Props.C101_default_store",
    "Verif.Props.C101_interventional",
    "Verif.Props.C101_counterfactual",
    "Verif.Props.C101_causation",
    "Verif.Props.C101_example"
   ],
   "note": "For the list, flat numpy and tree stores. With the default store canonical_deterministic raises for an endogenous variable without endogenous parents, and every model with endogenous variables has one (C101_default_store). Each endogenous variable has an exogenous parent of its own; C101_rich has no such condition."
  },
  {
   "property": "C102",
   "status": "partial",
   "theorems": [
    "Verif.Props.C102_rich",
    "Verif.Props.C102_canonical_partial",
    "Verif.Props.C102_likelihood_partial",
    "Verif.Props.C102_example"
   ],
   "note": "For the list, flat numpy and tree stores. With the default store canonical_deterministic raises for an endogenous variable without endogenous parents (C101_default_store). C102_rich has no such restriction."
  },
  {
   "property": "C103",
   "status": "proved",
   "theorems": [
    "Verif.Props.C103_determined",
    "Verif.Props.C103_effect",
    "Verif.Props.C103_identified",
    "Verif.Props.C103_example",
    "Verif.Props.C103_two_models",
    "Verif.Props.C103_confounded"
   ],
   "note": ""
  },
  {
   "property": "C104",
   "status": "proved",
   "theorems": [
    "Verif.Props.C104_undetermined",
    "Verif.Props.C104_determined",
    "Verif.Props.C104_exact",
    "Verif.Props.C104_example"
   ],
   "note": ""
  },
  {
   "property": "C105",
   "status": "partial",
   "theorems": [
    "Verif.Props.C105_query",
    "Verif.Props.C105_causal",
    "Verif.Props.C105_counterfactual_partial",
    "Verif.Props.C105_example",
    "Verif.Props.C105_collision"
   ],
   "note": "Proved for conditional and causal queries. For counterfactual queries under the conditions of C43, and when the names of the copies are new after the renaming; otherwise it is false (C105_collision). Causal models: the renaming mentions the endogenous variables (C34). Exact numbers."
  },
  {
   "property": "C106",
   "status": "proved",
   "theorems": [
    "Verif.Props.C106_states",
    "Verif.Props.C106_empty",
    "Verif.Props.C106_true_false",
    "Verif.Props.C106_example"
   ],
   "note": "Names are strings; str.lower is a parameter of which C106_true_false uses that it keeps the lower-cased name followed by a number. In particular the numeric domains with the default first number are not recognised (C106_example)."
  },
  {
   "property": "C107",
   "status": "proved",
   "theorems": [
    "Verif.Props.C107_cells",
    "Verif.Props.C107_back",
    "Verif.Props.C107_refused",
    "Verif.Props.C107_example"
   ],
   "note": "Shapes without the size -1."
  },
  {
   "property": "C108",
   "status": "proved",
   "theorems": [
    "Verif.Props.C108_attained",
    "Verif.Props.C108_attained_pair",
    "Verif.Props.C108_exact",
    "Verif.Props.C108_example",
    "Verif.Props.C108_example_pair"
   ],
   "note": "The hypotheses say that the names of the copies of the variables are new (without it prob_necessity is wrong, see C46)."
  },
  {
   "property": "C109",
   "status": "proved",
   "theorems": [
    "Verif.Props.C109_disjoint",
    "Verif.Props.C109_cover",
    "Verif.Props.C109_pairs",
    "Verif.Props.C109_length",
    "Verif.Props.C109_get",
    "Verif.Props.C109_kinds",
    "Verif.Props.C109_example",
    "Verif.Props.C109_kinds_example"
   ],
   "note": "An exogenous variable without children and exogenous parents is in no component (C109_cover)."
  },
  {
   "property": "C110",
   "status": "proved",
   "theorems": [
    "Verif.Props.C110_positions",
    "Verif.Props.C110_labels",
    "Verif.Props.C110_steps",
    "Verif.Props.C110_example"
   ],
   "note": ""
  },
  {
   "property": "C111",
   "status": "proved",
   "theorems": [
    "Verif.Props.C111_accepted",
    "Verif.Props.C111_refused",
    "Verif.Props.C111_closed",
    "Verif.Props.C111_copies",
    "Verif.Props.C111_model",
    "Verif.Props.C111_example"
   ],
   "note": ""
  },
  {
   "property": "C112",
   "status": "partial",
   "theorems": [
    "Verif.Props.C112_alone_partial",
    "Verif.Props.C112_values_partial",
    "Verif.Props.C112_write_partial",
    "Verif.Props.C112_copy",
    "Verif.Props.C112_intervention",
    "Verif.Props.C112_intervened_partial",
    "Verif.Props.C112_renamed_partial",
    "Verif.Props.C112_example"
   ],
   "note": "False for in-place changes of tables after copy, to_multinomial and intervention, which share them with the original (C112_copy, C112_intervention: for all programs). Proved for all programs without in-place changes, and for those in which no other model refers to the changed table; renamed models and intervened variables have tables of their own."
  },
  {
   "property": "C113",
   "status": "partial",
   "theorems": [
    "Verif.Props.C113_refused",
    "Verif.Props.C113_combined",
    "Verif.Props.C113_one_store",
    "Verif.Props.C113_answered",
    "Verif.Props.C113_answers_partial",
    "Verif.Props.C113_exact",
    "Verif.Props.C113_em_partial",
    "Verif.Props.C113_em_refused",
    "Verif.Props.C113_asked",
    "Verif.Props.C113_learnt",
    "Verif.Props.C113_example"
   ],
   "note": "False: factors of different stores cannot be combined (C113_refused), so a query is answered exactly when the tables that matter for it are kept in one store (C113_exact, both directions for all networks and elimination orders; then it is the posterior, C113_answers_partial), and a model outside the default store cannot be learnt (C113_em_refused). In one store, everything is as proved for that store (C113_one_store, C113_em_partial)."
  },
  {
   "property": "C114",
   "status": "proved",
   "theorems": [
    "Verif.Props.C114_marginal",
    "Verif.Props.C114_chain",
    "Verif.Props.C114_zero",
    "Verif.Props.C114_order",
    "Verif.Props.C114_condition",
    "Verif.Props.C114_total",
    "Verif.Props.C114_bayes",
    "Verif.Props.C114_do_marginal",
    "Verif.Props.C114_do_chain",
    "Verif.Props.C114_do_order",
    "Verif.Props.C114_asked",
    "Verif.Props.C114_example"
   ],
   "note": "Evidence of non-zero probability (C40 says what happens otherwise); the last two rules need answers without zeros, since stores differ on 0/0 (C04)."
  },
  {
   "property": "C115",
   "status": "proved",
   "theorems": [
    "Verif.Props.C115_name",
    "Verif.Props.C115_equation_name",
    "Verif.Props.C115_kinds",
    "Verif.Props.C115_table",
    "Verif.Props.C115_equation",
    "Verif.Props.C115_interval",
    "Verif.Props.C115_network",
    "Verif.Props.C115_causal",
    "Verif.Props.C115_show",
    "Verif.Props.C115_text",
    "Verif.Props.C115_not_shown",
    "Verif.Props.C115_network_text",
    "Verif.Props.C115_comma"
   ],
   "note": "C115_not_shown and C115_comma are the limits: state names and middle values are not shown, and a comma in a name is read as a separator."
  },
  {
   "property": "C116",
   "status": "proved",
   "theorems": [
    "Verif.Props.C116_envelope",
    "Verif.Props.C116_same",
    "Verif.Props.C116_union",
    "Verif.Props.C116_restrict",
    "Verif.Props.C116_query",
    "Verif.Props.C116_add",
    "Verif.Props.C116_tables",
    "Verif.Props.C116_example",
    "Verif.Props.C116_learnt"
   ],
   "note": "The values must be finite (C50_nan says what happens otherwise); C116_add is for an object that answers for its own models, which C51 shows may fail when lists are shared."
  },
  {
   "property": "C117",
   "status": "proved",
   "theorems": [
    "Verif.Props.C117_worlds",
    "Verif.Props.C117_composition",
    "Verif.Props.C117_marginal",
    "Verif.Props.C117_interventional",
    "Verif.Props.C117_average",
    "Verif.Props.C117_example",
    "Verif.Props.C117_example_composition"
   ],
   "note": "For the queries that C43 shows to be answered (CfOk); C44 shows what happens to the others."
  },
  {
   "property": "C118",
   "status": "partial",
   "theorems": [
    "Verif.Props.C118_operators_partial",
    "Verif.Props.C118_answered",
    "Verif.Props.C118_refused",
    "Verif.Props.C118_exceptions",
    "Verif.Props.C118_combine_all",
    "Verif.Props.C118_few",
    "Verif.Props.C118_pow",
    "Verif.Props.C118_labels",
    "Verif.Props.C118_type_error",
    "Verif.Props.C118_not_product",
    "Verif.Props.C118_wrong",
    "Verif.Props.C118_example"
   ],
   "note": "The code violates it for a table on the left and an equation on the right (C118_wrong); everything else is proved."
  },
  {
   "property": "C119",
   "status": "partial",
   "theorems": [
    "Verif.Props.C119_list",
    "Verif.Props.C119_lists",
    "Verif.Props.C119_exact",
    "Verif.Props.C119_conditional",
    "Verif.Props.C119_same",
    "Verif.Props.C119_causal",
    "Verif.Props.C119_counterfactual",
    "Verif.Props.C119_frequency",
    "Verif.Props.C119_separated",
    "Verif.Props.C119_connected",
    "Verif.Props.C119_dcon_partial",
    "Verif.Props.C119_container_refused",
    "Verif.Props.C119_not_string",
    "Verif.Props.C119_tuple",
    "Verif.Props.C119_asked",
    "Verif.Props.C119_asked_graph",
    "Verif.Props.C119_example"
   ],
   "note": "Holds for names that are strings in all queries; dcon_nodes refuses containers and names that are not strings are refused or taken apart, with witnesses."
  },
  {
   "property": "C120",
   "status": "proved",
   "theorems": [
    "Verif.Props.C120_elapsed",
    "Verif.Props.C120_refused",
    "Verif.Props.C120_reading",
    "Verif.Props.C120_one_watch",
    "Verif.Props.C120_monotone",
    "Verif.Props.C120_example"
   ],
   "note": "All sequences of calls of the class itself; exact arithmetic."
  },
  {
   "property": "C121",
   "status": "proved",
   "theorems": [
    "Verif.Props.C121_text",
    "Verif.Props.C121_same",
    "Verif.Props.C121_every",
    "Verif.Props.C121_refused",
    "Verif.Props.C121_outside",
    "Verif.Props.C121_linear",
    "Verif.Props.C121_answered",
    "Verif.Props.C121_example"
   ],
   "note": "Exact arithmetic. Components beyond 1 or negative give texts that are no colours (C121_outside)."
  },
  {
   "property": "C122",
   "status": "proved",
   "theorems": [
    "Verif.Props.C122_drawn",
    "Verif.Props.C122_readable",
    "Verif.Props.C122_refused",
    "Verif.Props.C122_stranger",
    "Verif.Props.C122_default",
    "Verif.Props.C122_example"
   ],
   "note": "For graphs of networkx and endogenous lists of distinct nodes; others are refused (C122_stranger)."
  }
 ]
}