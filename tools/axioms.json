{
"Verif.Props.C01_product_pointwise": [
"propext",
"Classical.choice",
"Quot.sound"
],
"Verif.Props.C02_label_pairing_partial": [
"propext",
"Classical.choice",
"Quot.sound"
],
"Verif.Props.C02_numpy_violation": [
"propext",
"Classical.choice",
"Quot.sound"
],
"Verif.Props.C02_numpy_by_place": [
"propext",
"Classical.choice",
"Quot.sound"
],
"Verif.Props.C02_by_place_example": [
"propext",
"Quot.sound"
],
"Verif.Props.C02_exact": [
"propext",
"Classical.choice",
"Quot.sound"
],
"Verif.Props.C02_exact_example": [
"propext",
"Classical.choice",
"Quot.sound"
],
"Verif.Props.C03_sum_pointwise": [
"propext",
"Classical.choice",
"Quot.sound"
],
"Verif.Props.C03_difference_pointwise": [
"propext",
"Classical.choice",
"Quot.sound"
],
"Verif.Props.C03_scalar_operand": [
"propext",
"Classical.choice",
"Quot.sound"
],
"Verif.Props.C04_division_pointwise": [
"propext",
"Classical.choice",
"Quot.sound"
],
"Verif.Props.C04_zero_over_zero": [
"propext",
"Classical.choice",
"Quot.sound"
],
"Verif.Props.C05_marginalize_sums": [
"propext",
"Classical.choice",
"Quot.sound"
],
"Verif.Props.C05_marginalize_absent": [
"propext",
"Classical.choice",
"Quot.sound"
],
"Verif.Props.C06_maxmarginalize": [
"propext",
"Classical.choice",
"Quot.sound"
],
"Verif.Props.C06_numpy1d_refuses": [
"propext",
"Quot.sound"
],
"Verif.Props.C07_restrict_conditions": [
"propext",
"Classical.choice",
"Quot.sound"
],
"Verif.Props.C07_restrict_bad_state": [
"propext",
"Classical.choice",
"Quot.sound"
],
"Verif.Props.C08_list_restriction_partial": [
"propext",
"Classical.choice",
"Quot.sound"
],
"Verif.Props.C08_violation_order": [
"propext",
"Classical.choice",
"Quot.sound"
],
"Verif.Props.C08_violation_two_lists": [
"propext",
"Quot.sound"
],
"Verif.Props.C08_violation_axes": [
"propext",
"Quot.sound"
],
"Verif.Props.C08_one_list": [
"propext",
"Classical.choice",
"Quot.sound"
],
"Verif.Props.C08_in_order": [
"propext",
"Classical.choice",
"Quot.sound"
],
"Verif.Props.C08_out_of_order": [
"propext",
"Classical.choice",
"Quot.sound"
],
"Verif.Props.C08_apart": [
"propext",
"Classical.choice",
"Quot.sound"
],
"Verif.Props.C08_apart_example": [
"propext",
"Classical.choice",
"Quot.sound"
],
"Verif.Props.C08_one_list_example": [
"propext",
"Quot.sound"
],
"Verif.Props.C08_two_lists": [
"propext",
"Classical.choice",
"Quot.sound"
],
"Verif.Props.C08_no_lists": [
"propext",
"Classical.choice",
"Quot.sound"
],
"Verif.Props.C09_store_independence": [
"propext",
"Classical.choice",
"Quot.sound"
],
"Verif.Props.C10_read_after_writes": [
"propext",
"Classical.choice",
"Quot.sound"
],
"Verif.Props.C11_index_of_state": [
"propext",
"Classical.choice",
"Quot.sound"
],
"Verif.Props.C11_partial_observation": [
"propext",
"Classical.choice",
"Quot.sound"
],
"Verif.Props.C12_values_roundtrip": [
"propext",
"Classical.choice",
"Quot.sound"
],
"Verif.Props.C12_wrong_length": [
"propext",
"Classical.choice",
"Quot.sound"
],
"Verif.Props.C13_values_array": [
"propext",
"Classical.choice",
"Quot.sound"
],
"Verif.Props.C14_rename": [
"propext",
"Classical.choice",
"Quot.sound"
],
"Verif.Props.C15_left_right_bookkeeping": [
"propext",
"Classical.choice",
"Quot.sound"
],
"Verif.Props.C15_summed_out_is_one": [
"propext",
"Classical.choice",
"Quot.sound"
],
"Verif.Props.C16_to_multinomial": [
"propext",
"Classical.choice",
"Quot.sound"
],
"Verif.Props.C16_column_sums": [
"propext",
"Classical.choice",
"Quot.sound"
],
"Verif.Props.C17_roundtrip_partial": [
"propext",
"Classical.choice",
"Quot.sound"
],
"Verif.Props.C17_violation": [
"propext",
"Quot.sound"
],
"Verif.Props.C17_false": [
"propext",
"Classical.choice",
"Quot.sound"
],
"Verif.Props.C17_exact": [
"propext",
"Classical.choice",
"Quot.sound"
],
"Verif.Props.C17_exact_example": [
"propext",
"Quot.sound"
],
"Verif.Props.C18_constant": [
"propext",
"Classical.choice",
"Quot.sound"
],
"Verif.Props.C18_constant_bad_state": [
"propext",
"Classical.choice",
"Quot.sound"
],
"Verif.Props.C18_constant_deterministic": [
"propext",
"Classical.choice",
"Quot.sound"
],
"Verif.Props.C19_canonical_partial": [
"propext",
"Classical.choice",
"Quot.sound"
],
"Verif.Props.C19_violation_two_parents": [
"propext"
],
"Verif.Props.C19_violation_no_parents": [
"propext"
],
"Verif.Props.C19_numpy_refuses": [
"propext",
"Classical.choice",
"Quot.sound"
],
"Verif.Props.C21_barren_nodes": [
"propext",
"Classical.choice",
"Quot.sound"
],
"Verif.Props.C23_markov_blanket": [
"propext",
"Classical.choice",
"Quot.sound"
],
"Verif.Props.C23_markov_blanket_util": [
"propext",
"Classical.choice",
"Quot.sound"
],
"Verif.Props.C24_dsep_independence": [
"propext",
"Classical.choice",
"Quot.sound"
],
"Verif.Props.C24_dsep_posterior": [
"propext",
"Classical.choice",
"Quot.sound"
],
"Verif.Props.C25_elimination_order": [
"propext",
"Classical.choice",
"Quot.sound"
],
"Verif.Props.C28_acyclic": [
"propext",
"Classical.choice",
"Quot.sound"
],
"Verif.Props.C31_intervention": [
"propext",
"Classical.choice",
"Quot.sound"
],
"Verif.Props.C31_other_factors": [
"propext",
"Classical.choice",
"Quot.sound"
],
"Verif.Props.C31_example": [
"propext",
"Classical.choice",
"Quot.sound"
],
"Verif.Props.C31_unknown_ignored": [
"propext",
"Classical.choice",
"Quot.sound"
],
"Verif.Props.C32_compose": [
"propext",
"Classical.choice",
"Quot.sound"
],
"Verif.Props.C32_commute": [
"propext",
"Classical.choice",
"Quot.sound"
],
"Verif.Props.C32_idempotent": [
"propext",
"Classical.choice",
"Quot.sound"
],
"Verif.Props.C33_to_multinomial_partial": [
"propext",
"Classical.choice",
"Quot.sound"
],
"Verif.Props.C33_to_bnet_partial": [
"propext",
"Classical.choice",
"Quot.sound"
],
"Verif.Props.C33_exact": [
"propext",
"Classical.choice",
"Quot.sound"
],
"Verif.Props.C33_roles_lost": [
"propext",
"Classical.choice",
"Quot.sound"
],
"Verif.Props.C33_explicit_roles_lost": [
"propext",
"Classical.choice",
"Quot.sound"
],
"Verif.Props.C33_root_not_cast": [
"propext",
"Classical.choice",
"Quot.sound"
],
"Verif.Props.C33_exogenous_with_parents": [
"propext",
"Classical.choice",
"Quot.sound"
],
"Verif.Props.C34_rename_causal": [
"propext",
"Classical.choice",
"Quot.sound"
],
"Verif.Props.C34_rename_bnet": [
"propext",
"Classical.choice",
"Quot.sound"
],
"Verif.Props.C34_endogenous_must_be_mapped": [
"propext",
"Classical.choice",
"Quot.sound"
],
"Verif.Props.C34_unmapped_fails": [
"propext",
"Quot.sound"
],
"Verif.Props.C36_exact_posterior": [
"propext",
"Classical.choice",
"Quot.sound"
],
"Verif.Props.C37_heuristic_irrelevant": [
"propext",
"Classical.choice",
"Quot.sound"
],
"Verif.Props.C37_admissible": [
"propext",
"Classical.choice",
"Quot.sound"
],
"Verif.Props.C38_pruning": [
"propext",
"Classical.choice",
"Quot.sound"
],
"Verif.Props.C39_conditional_partial": [
"propext",
"Classical.choice",
"Quot.sound"
],
"Verif.Props.C39_conditional_any_store": [
"propext",
"Classical.choice",
"Quot.sound"
],
"Verif.Props.C39_sums_to_one": [
"propext",
"Classical.choice",
"Quot.sound"
],
"Verif.Props.C39_pruned": [
"propext",
"Classical.choice",
"Quot.sound"
],
"Verif.Props.C39_exact": [
"propext",
"Classical.choice",
"Quot.sound"
],
"Verif.Props.C39_zero_evidence": [
"propext",
"Classical.choice",
"Quot.sound"
],
"Verif.Props.C39_exact_example": [
"propext",
"Classical.choice",
"Quot.sound"
],
"Verif.Props.C40_impossible_evidence": [
"propext",
"Classical.choice",
"Quot.sound"
],
"Verif.Props.C41_refused_partial": [
"propext",
"Classical.choice",
"Quot.sound"
],
"Verif.Props.C41_exact": [
"propext",
"Classical.choice",
"Quot.sound"
],
"Verif.Props.C41_exact_cond": [
"propext",
"Classical.choice",
"Quot.sound"
],
"Verif.Props.C41_recorded": [
"propext",
"Classical.choice",
"Quot.sound"
],
"Verif.Props.C41_history": [
"propext",
"Quot.sound"
],
"Verif.Props.C41_stale_answer": [
"propext",
"Classical.choice",
"Quot.sound"
],
"Verif.Props.C41_repeated_conditional": [
"propext",
"Classical.choice",
"Quot.sound"
],
"Verif.Props.C41_exact_example": [
"propext",
"Classical.choice",
"Quot.sound"
],
"Verif.Props.C35_fused_joint": [
"propext",
"Classical.choice",
"Quot.sound"
],
"Verif.Props.C35_fusion": [
"propext",
"Classical.choice",
"Quot.sound"
],
"Verif.Props.C42_interventional": [
"propext",
"Classical.choice",
"Quot.sound"
],
"Verif.Props.C42_unknown": [
"propext",
"Quot.sound"
],
"Verif.Props.C42_do_wins": [
"propext",
"Classical.choice",
"Quot.sound"
],
"Verif.Props.C42_example": [
"propext",
"Classical.choice",
"Quot.sound"
],
"Verif.Props.C43_counterfactual_partial": [
"propext",
"Classical.choice",
"Quot.sound"
],
"Verif.Props.C43_one_world_partial": [
"propext",
"Classical.choice",
"Quot.sound"
],
"Verif.Props.C43_name_collision": [
"propext",
"Classical.choice",
"Quot.sound"
],
"Verif.Props.C43_example": [
"propext",
"Classical.choice",
"Quot.sound"
],
"Verif.Props.C43_example_value": [
"propext",
"Classical.choice",
"Quot.sound"
],
"Verif.Props.C44_answered_partial": [
"propext",
"Classical.choice",
"Quot.sound"
],
"Verif.Props.C44_childless": [
"propext",
"Classical.choice",
"Quot.sound"
],
"Verif.Props.C44_exogenous_do": [
"propext",
"Classical.choice",
"Quot.sound"
],
"Verif.Props.C44_exogenous_target": [
"propext",
"Classical.choice",
"Quot.sound"
],
"Verif.Props.C44_intervened_target": [
"propext",
"Classical.choice",
"Quot.sound"
],
"Verif.Props.C45_consistency": [
"propext",
"Classical.choice",
"Quot.sound"
],
"Verif.Props.C45_example_value": [
"propext",
"Classical.choice",
"Quot.sound"
],
"Verif.Props.C46_necessity_partial": [
"propext",
"Classical.choice",
"Quot.sound"
],
"Verif.Props.C46_sufficiency_partial": [
"propext",
"Classical.choice",
"Quot.sound"
],
"Verif.Props.C46_necessity_sufficiency_partial": [
"propext",
"Classical.choice",
"Quot.sound"
],
"Verif.Props.C46_range_partial": [
"propext",
"Classical.choice",
"Quot.sound"
],
"Verif.Props.C46_identity_partial": [
"propext",
"Classical.choice",
"Quot.sound"
],
"Verif.Props.C46_example": [
"propext",
"Classical.choice",
"Quot.sound"
],
"Verif.Props.C46_childless": [
"propext",
"Classical.choice",
"Quot.sound"
],
"Verif.Props.C20_normalize_array": [
"propext",
"Classical.choice",
"Quot.sound"
],
"Verif.Props.C20_random": [
"propext",
"Classical.choice",
"Quot.sound"
],
"Verif.Props.C20_random_nonzero": [
"propext",
"Classical.choice",
"Quot.sound"
],
"Verif.Props.C20_uniform": [
"propext",
"Classical.choice",
"Quot.sound"
],
"Verif.Props.C20_zero_column": [
"propext",
"Classical.choice",
"Quot.sound"
],
"Verif.Props.C22_roundtrip_partial": [
"propext",
"Classical.choice",
"Quot.sound"
],
"Verif.Props.C22_single_node": [
"propext",
"Quot.sound"
],
"Verif.Props.C22_isolated_lost": [
"propext",
"Classical.choice",
"Quot.sound"
],
"Verif.Props.C22_exact": [
"propext",
"Classical.choice",
"Quot.sound"
],
"Verif.Props.C22_empty": [
"propext"
],
"Verif.Props.C47_the_states": [
"propext",
"Quot.sound"
],
"Verif.Props.C47_refused": [
"propext",
"Classical.choice",
"Quot.sound"
],
"Verif.Props.C47_order_partial": [
"propext",
"Classical.choice",
"Quot.sound"
],
"Verif.Props.C47_exact": [
"propext",
"Classical.choice",
"Quot.sound"
],
"Verif.Props.C47_exact_list": [
"propext",
"Classical.choice",
"Quot.sound"
],
"Verif.Props.C47_case": [
"propext",
"Classical.choice",
"Quot.sound"
],
"Verif.Props.C47_examples": [
"propext",
"Classical.choice",
"Quot.sound"
],
"Verif.Props.C47_exact_example": [
"propext",
"Classical.choice",
"Quot.sound"
],
"Verif.Props.C70_powerset": [
"propext",
"Classical.choice",
"Quot.sound"
],
"Verif.Props.C26_histories": [
"propext",
"Classical.choice",
"Quot.sound"
],
"Verif.Props.C26_constructed": [
"propext",
"Classical.choice",
"Quot.sound"
],
"Verif.Props.C26_constructed_dict": [
"propext",
"Classical.choice",
"Quot.sound"
],
"Verif.Props.C26_refused_partial": [
"propext",
"Classical.choice",
"Quot.sound"
],
"Verif.Props.C26_unknown_name": [
"propext"
],
"Verif.Props.C26_accepted": [
"propext",
"Classical.choice",
"Quot.sound"
],
"Verif.Props.C27_topological_partial": [
"propext",
"Classical.choice",
"Quot.sound"
],
"Verif.Props.C27_child_first": [
"propext",
"Classical.choice",
"Quot.sound"
],
"Verif.Props.C27_parent_first": [
"propext",
"Classical.choice",
"Quot.sound"
],
"Verif.Props.C27_state_order": [
"propext",
"Classical.choice",
"Quot.sound"
],
"Verif.Props.C27_built": [
"propext",
"Classical.choice",
"Quot.sound"
],
"Verif.Props.C27_exact": [
"propext",
"Classical.choice",
"Quot.sound"
],
"Verif.Props.C27_orders": [
"propext",
"Classical.choice",
"Quot.sound"
],
"Verif.Props.C27_exact_example": [
"propext",
"Classical.choice",
"Quot.sound"
],
"Verif.Props.C29_prob": [
"propext",
"Classical.choice",
"Quot.sound"
],
"Verif.Props.C29_total": [
"propext",
"Classical.choice",
"Quot.sound"
],
"Verif.Props.C29_prob_total": [
"propext",
"Classical.choice",
"Quot.sound"
],
"Verif.Props.C29_ancestral": [
"propext",
"Classical.choice",
"Quot.sound"
],
"Verif.Props.C29_example": [
"propext",
"Classical.choice",
"Quot.sound"
],
"Verif.Props.C30_sampling": [
"propext",
"Classical.choice",
"Quot.sound"
],
"Verif.Props.C30_no_samples": [
"propext",
"Classical.choice",
"Quot.sound"
],
"Verif.Props.C30_example": [
"propext",
"Classical.choice",
"Quot.sound"
],
"Verif.Props.C62_single_partial": [
"propext",
"Classical.choice",
"Quot.sound"
],
"Verif.Props.C62_exact": [
"propext",
"Classical.choice",
"Quot.sound"
],
"Verif.Props.C62_parts": [
"propext",
"Quot.sound"
],
"Verif.Props.C62_list": [
"propext",
"Quot.sound"
],
"Verif.Props.C62_substring": [
"propext",
"Classical.choice",
"Quot.sound"
],
"Verif.Props.C62_exact_example": [
"propext",
"Classical.choice",
"Quot.sound"
],
"Verif.Props.C66_disjoint": [
"propext",
"Classical.choice",
"Quot.sound"
],
"Verif.Props.C66_cover": [
"propext",
"Classical.choice",
"Quot.sound"
],
"Verif.Props.C66_together": [
"propext",
"Classical.choice",
"Quot.sound"
],
"Verif.Props.C66_minimal": [
"propext",
"Classical.choice",
"Quot.sound"
],
"Verif.Props.C66_get": [
"propext",
"Classical.choice",
"Quot.sound"
],
"Verif.Props.C66_example": [
"propext"
],
"Verif.Props.C66_omitted": [
"propext"
],
"Verif.Props.C67_contains": [
"propext",
"Classical.choice",
"Quot.sound"
],
"Verif.Props.C67_acyclic_partial": [
"propext",
"Classical.choice",
"Quot.sound"
],
"Verif.Props.C67_markovian_partial": [
"propext",
"Classical.choice",
"Quot.sound"
],
"Verif.Props.C67_cyclic": [
"propext",
"Classical.choice",
"Quot.sound"
],
"Verif.Props.C67_exact": [
"propext",
"Classical.choice",
"Quot.sound"
],
"Verif.Props.C67_built": [
"propext",
"Classical.choice",
"Quot.sound"
],
"Verif.Props.C67_exact_example": [
"propext",
"Classical.choice",
"Quot.sound"
],
"Verif.Props.C50_envelope": [
"propext",
"Classical.choice",
"Quot.sound"
],
"Verif.Props.C50_restrict": [
"propext",
"Classical.choice",
"Quot.sound"
],
"Verif.Props.C50_pair": [
"propext",
"Classical.choice",
"Quot.sound"
],
"Verif.Props.C50_scalars": [
"propext",
"Quot.sound"
],
"Verif.Props.C50_refused": [
"propext",
"Quot.sound"
],
"Verif.Props.C50_example": [
"propext",
"Classical.choice",
"Quot.sound"
],
"Verif.Props.C50_nan": [
"propext",
"Classical.choice",
"Quot.sound"
],
"Verif.Props.C51_current_partial": [
"propext",
"Quot.sound"
],
"Verif.Props.C51_shared": [
"propext"
],
"Verif.Props.C51_caller_list": [
"propext"
],
"Verif.Props.C51_emcc": [
"propext",
"Quot.sound"
],
"Verif.Props.C52_incremental": [
"propext",
"Classical.choice",
"Quot.sound"
],
"Verif.Props.C52_final": [
"propext",
"Classical.choice",
"Quot.sound"
],
"Verif.Props.C52_zero": [
"propext"
],
"Verif.Props.C53_sequential": [
"propext",
"Quot.sound"
],
"Verif.Props.C53_parallel_partial": [
"propext",
"Quot.sound"
],
"Verif.Props.C53_parallel": [
"propext"
],
"Verif.Props.C53_refused": [
"propext"
],
"Verif.Props.C53_exact": [
"propext",
"Quot.sound"
],
"Verif.Props.C53_exact_distinct": [
"propext",
"Quot.sound"
],
"Verif.Props.C53_exact_example": [
"propext"
],
"Verif.Props.C48_frequency": [
"propext",
"Classical.choice",
"Quot.sound"
],
"Verif.Props.C48_conditional": [
"propext",
"Classical.choice",
"Quot.sound"
],
"Verif.Props.C48_no_records": [
"propext",
"Classical.choice",
"Quot.sound"
],
"Verif.Props.C48_missing": [
"propext",
"Classical.choice",
"Quot.sound"
],
"Verif.Props.C57_weights_partial": [
"propext",
"Classical.choice",
"Quot.sound"
],
"Verif.Props.C57_at_least": [
"propext",
"Classical.choice",
"Quot.sound"
],
"Verif.Props.C57_answered": [
"propext",
"Classical.choice",
"Quot.sound"
],
"Verif.Props.C57_exact": [
"propext",
"Classical.choice",
"Quot.sound"
],
"Verif.Props.C57_double": [
"propext"
],
"Verif.Props.C57_empty": [
"propext"
],
"Verif.Props.C57_exact_example": [
"propext"
],
"Verif.Props.C57_apart": [
"propext"
],
"Verif.Props.C60_first": [
"propext",
"Classical.choice",
"Quot.sound"
],
"Verif.Props.C60_exactly_once": [
"propext",
"Classical.choice",
"Quot.sound"
],
"Verif.Props.C60_patterns": [
"propext",
"Classical.choice",
"Quot.sound"
],
"Verif.Props.C54_loop": [
"propext",
"Quot.sound"
],
"Verif.Props.C54_first_run": [
"propext",
"Quot.sound"
],
"Verif.Props.C54_unlimited": [
"propext",
"Quot.sound"
],
"Verif.Props.C54_function": [
"propext",
"Quot.sound"
],
"Verif.Props.C54_second_run": [
"propext",
"Quot.sound"
],
"Verif.Props.C55_no_learning": [
"propext",
"Classical.choice",
"Quot.sound"
],
"Verif.Props.C55_second_run": [
"propext",
"Classical.choice",
"Quot.sound"
],
"Verif.Props.C55_stops_early": [
"propext",
"Classical.choice",
"Quot.sound"
],
"Verif.Props.C55_first_step_partial": [
"propext",
"Quot.sound"
],
"Verif.Props.C56_run": [
"propext",
"Classical.choice",
"Quot.sound"
],
"Verif.Props.C56_unbounded": [
"propext",
"Classical.choice",
"Quot.sound"
],
"Verif.Props.C56_history": [
"propext",
"Classical.choice",
"Quot.sound"
],
"Verif.Props.C56_example": [
"propext",
"Classical.choice",
"Quot.sound"
],
"Verif.Props.C59_counts": [
"propext",
"Classical.choice",
"Quot.sound"
],
"Verif.Props.C59_own_configuration_partial": [
"propext",
"Classical.choice",
"Quot.sound"
],
"Verif.Props.C59_broadcast": [
"propext",
"Classical.choice",
"Quot.sound"
],
"Verif.Props.C59_other_configurations": [
"propext",
"Classical.choice",
"Quot.sound"
],
"Verif.Props.C59_observed_parent": [
"propext",
"Classical.choice",
"Quot.sound"
],
"Verif.Props.C59_exact": [
"propext",
"Classical.choice",
"Quot.sound"
],
"Verif.Props.C59_exact_example": [
"propext",
"Classical.choice",
"Quot.sound"
],
"Verif.Props.C58_step_partial": [
"propext",
"Classical.choice",
"Quot.sound"
],
"Verif.Props.C58_run_partial": [
"propext",
"Classical.choice",
"Quot.sound"
],
"Verif.Props.C58_end_partial": [
"propext",
"Classical.choice",
"Quot.sound"
],
"Verif.Props.C58_mixed": [
"propext",
"Classical.choice",
"Quot.sound"
],
"Verif.Props.C58_run_example": [
"propext",
"Classical.choice",
"Quot.sound"
],
"Verif.Props.C58_example": [
"propext",
"Classical.choice",
"Quot.sound"
],
"Verif.Props.C71_incomplete_observation": [
"propext",
"Classical.choice",
"Quot.sound"
],
"Verif.Props.C71_completed": [
"propext",
"Classical.choice",
"Quot.sound"
],
"Verif.Props.C72_hidden_blanket": [
"propext",
"Classical.choice",
"Quot.sound"
],
"Verif.Props.C72_nothing_hidden": [
"propext",
"Classical.choice",
"Quot.sound"
],
"Verif.Props.C73_minimal_observations": [
"propext",
"Classical.choice",
"Quot.sound"
],
"Verif.Props.C63_round_trip_partial": [
"propext",
"Classical.choice",
"Quot.sound"
],
"Verif.Props.C63_joint": [
"propext",
"Classical.choice",
"Quot.sound"
],
"Verif.Props.C63_names_small": [
"propext",
"Classical.choice",
"Quot.sound"
],
"Verif.Props.C63_isolated": [
"propext",
"Classical.choice",
"Quot.sound"
],
"Verif.Props.C63_names": [
"propext",
"Classical.choice",
"Quot.sound"
],
"Verif.Props.C63_exponent": [
"propext",
"Classical.choice",
"Quot.sound"
],
"Verif.Props.C63_indices": [
"propext",
"Classical.choice",
"Quot.sound"
],
"Verif.Props.C65_table_partial": [
"propext",
"Classical.choice",
"Quot.sound"
],
"Verif.Props.C65_exact": [
"propext",
"Classical.choice",
"Quot.sound"
],
"Verif.Props.C65_raises": [
"propext",
"Classical.choice",
"Quot.sound"
],
"Verif.Props.C65_first": [
"propext",
"Classical.choice",
"Quot.sound"
],
"Verif.Props.C65_order": [
"propext",
"Classical.choice",
"Quot.sound"
],
"Verif.Props.C65_first_example": [
"propext",
"Classical.choice",
"Quot.sound"
],
"Verif.Props.C75_import": [
"propext",
"Classical.choice",
"Quot.sound"
],
"Verif.Props.C75_export_partial": [
"propext",
"Classical.choice",
"Quot.sound"
],
"Verif.Props.C75_net_partial": [
"propext",
"Classical.choice",
"Quot.sound"
],
"Verif.Props.C75_round_trip_partial": [
"propext",
"Classical.choice",
"Quot.sound"
],
"Verif.Props.C75_isolated": [
"propext",
"Classical.choice",
"Quot.sound"
],
"Verif.Props.C75_unset": [
"propext",
"Quot.sound"
],
"Verif.Props.C64_round_trip_partial": [
"propext",
"Classical.choice",
"Quot.sound"
],
"Verif.Props.C64_labels": [
"propext",
"Classical.choice",
"Quot.sound"
],
"Verif.Props.C64_constant": [
"propext",
"Classical.choice",
"Quot.sound"
],
"Verif.Props.C64_isolated": [
"propext",
"Classical.choice",
"Quot.sound"
],
"Verif.Props.C64_exponent": [
"propext",
"Classical.choice",
"Quot.sound"
],
"Verif.Props.C74_type_error": [
"propext"
],
"Verif.Props.C74_keywords_partial": [
"propext",
"Classical.choice",
"Quot.sound"
],
"Verif.Props.C68_tree": [
"propext",
"Classical.choice",
"Quot.sound"
],
"Verif.Props.C68_store": [
"propext",
"Classical.choice",
"Quot.sound"
],
"Verif.Props.C68_no_lookup": [
"propext",
"Quot.sound"
],
"Verif.Props.C68_copy_constant": [
"propext",
"Quot.sound"
],
"Verif.Props.C68_copy_node": [
"propext",
"Quot.sound"
],
"Verif.Props.C68_negative_end": [
"propext",
"Classical.choice",
"Quot.sound"
],
"Verif.Props.C68_negative": [
"propext",
"Classical.choice",
"Quot.sound"
],
"Verif.Props.C68_default": [
"propext",
"Classical.choice",
"Quot.sound"
],
"Verif.Props.C76_last_split": [
"propext",
"Classical.choice",
"Quot.sound"
],
"Verif.Props.C76_not_best": [
"propext",
"Classical.choice",
"Quot.sound"
],
"Verif.Props.C69_arrays": [
"propext",
"Quot.sound"
],
"Verif.Props.C69_arrays_write": [
"propext",
"Quot.sound"
],
"Verif.Props.C69_trees_partial": [
"propext",
"Classical.choice",
"Quot.sound"
],
"Verif.Props.C69_tree_same_node": [
"propext",
"Quot.sound"
],
"Verif.Props.C69_tree_shares": [
"propext"
],
"Verif.Props.C69_tree_shares_back": [
"propext"
],
"Verif.Props.C69_shallow": [
"propext",
"Quot.sound"
],
"Verif.Props.C61_built": [
"propext",
"Classical.choice",
"Quot.sound"
],
"Verif.Props.C61_objective_partial": [
"propext",
"Classical.choice",
"Quot.sound"
],
"Verif.Props.C61_childless": [
"propext",
"Classical.choice",
"Quot.sound"
],
"Verif.Props.C61_not_counted": [
"propext",
"Classical.choice",
"Quot.sound"
],
"Verif.Props.C61_order": [
"propext",
"Classical.choice",
"Quot.sound"
],
"Verif.Props.C61_decomposes": [
"propext",
"Classical.choice",
"Quot.sound"
],
"Verif.Props.C61_total": [
"propext",
"Classical.choice",
"Quot.sound"
],
"Verif.Props.C61_updated": [
"propext",
"Classical.choice",
"Quot.sound"
],
"Verif.Props.C61_deterministic": [
"propext",
"Classical.choice",
"Quot.sound"
],
"Verif.Props.C61_two_parents": [
"propext",
"Classical.choice",
"Quot.sound"
],
"Verif.Props.C61_names": [
"propext",
"Classical.choice",
"Quot.sound"
],
"Verif.Props.C49_empirical": [
"propext",
"Classical.choice",
"Quot.sound"
],
"Verif.Props.C49_model": [
"propext",
"Classical.choice",
"Quot.sound"
],
"Verif.Props.C49_impossible": [
"propext",
"Classical.choice",
"Quot.sound"
],
"Verif.Props.C49_missing_value": [
"propext",
"Classical.choice",
"Quot.sound"
],
"Verif.Props.C49_bound": [
"propext",
"Classical.choice",
"Quot.sound"
],
"Verif.Props.C49_any_network": [
"propext",
"Classical.choice",
"Quot.sound"
],
"Verif.Props.C49_max_partial": [
"propext",
"Classical.choice",
"Quot.sound"
],
"Verif.Props.C49_no_exogenous_parent": [
"propext",
"Classical.choice",
"Quot.sound"
],
"Verif.Props.C49_deterministic": [
"propext",
"Classical.choice",
"Quot.sound"
],
"Verif.Props.C49_no_records": [
"propext",
"Classical.choice",
"Quot.sound"
],
"Verif.Props.C49_missing": [
"propext",
"Classical.choice",
"Quot.sound"
],
"Verif.Props.C77_factorisation": [
"propext",
"Classical.choice",
"Quot.sound"
],
"Verif.Props.C77_log_likelihood": [
"propext",
"Classical.choice",
"Quot.sound"
],
"Verif.Props.C77_impossible": [
"propext",
"Classical.choice",
"Quot.sound"
],
"Verif.Props.C77_exogenous_child": [
"propext",
"Classical.choice",
"Quot.sound"
],
"Verif.Props.C78_component": [
"propext",
"Classical.choice",
"Quot.sound"
],
"Verif.Props.C79_expressions_partial": [
"propext",
"Classical.choice",
"Quot.sound"
],
"Verif.Props.C79_same_cells": [
"propext",
"Classical.choice",
"Quot.sound"
],
"Verif.Props.C79_take_out": [
"propext",
"Classical.choice",
"Quot.sound"
],
"Verif.Props.C79_number_on_the_left": [
"propext",
"Quot.sound"
],
"Verif.Props.C79_other_number": [
"propext",
"Quot.sound"
],
"Verif.Props.C79_refused": [
"propext",
"Quot.sound"
],
"Verif.Props.C79_example": [
"propext",
"Classical.choice",
"Quot.sound"
],
"Verif.Props.C80_equation": [
"propext",
"Classical.choice",
"Quot.sound"
],
"Verif.Props.C80_equation_none": [
"propext",
"Quot.sound"
],
"Verif.Props.C80_fill": [
"propext",
"Classical.choice",
"Quot.sound"
],
"Verif.Props.C80_fill_new": [
"propext",
"Classical.choice",
"Quot.sound"
],
"Verif.Props.C80_randomize": [
"propext",
"Classical.choice",
"Quot.sound"
],
"Verif.Props.C80_network": [
"propext",
"Classical.choice",
"Quot.sound"
],
"Verif.Props.C80_example": [
"propext",
"Classical.choice",
"Quot.sound"
],
"Verif.Props.C80_example_values": [
"propext",
"Classical.choice",
"Quot.sound"
],
"Verif.Props.C80_endogenous_refused": [
"propext",
"Classical.choice",
"Quot.sound"
],
"Verif.Props.C80_no_states": [
"propext",
"Classical.choice",
"Quot.sound"
],
"Verif.Props.C80_other_states": [
"propext",
"Classical.choice",
"Quot.sound"
],
"Verif.Props.C81_single": [
"propext",
"Classical.choice",
"Quot.sound"
],
"Verif.Props.C81_likelihood_partial": [
"propext",
"Classical.choice",
"Quot.sound"
],
"Verif.Props.C81_generate": [
"propext",
"Classical.choice",
"Quot.sound"
],
"Verif.Props.C81_evidence": [
"propext",
"Classical.choice",
"Quot.sound"
],
"Verif.Props.C81_query": [
"propext",
"Classical.choice",
"Quot.sound"
],
"Verif.Props.C81_example": [
"propext",
"Classical.choice",
"Quot.sound"
],
"Verif.Props.C81_example_values": [
"propext",
"Classical.choice",
"Quot.sound"
],
"Verif.Props.C81_no_models": [
"propext",
"Classical.choice",
"Quot.sound"
],
"Verif.Props.C81_not_cast": [
"propext",
"Classical.choice",
"Quot.sound"
],
"Verif.Props.C81_impossible": [
"propext",
"Classical.choice",
"Quot.sound"
],
"Verif.Props.C82_counterfactual_partial": [
"propext",
"Classical.choice",
"Quot.sound"
],
"Verif.Props.C82_necessity_partial": [
"propext",
"Classical.choice",
"Quot.sound"
],
"Verif.Props.C82_sufficiency_partial": [
"propext",
"Classical.choice",
"Quot.sound"
],
"Verif.Props.C82_necessity_sufficiency_partial": [
"propext",
"Classical.choice",
"Quot.sound"
],
"Verif.Props.C82_emcc_necessity_partial": [
"propext",
"Classical.choice",
"Quot.sound"
],
"Verif.Props.C82_emcc_sufficiency_partial": [
"propext",
"Classical.choice",
"Quot.sound"
],
"Verif.Props.C82_emcc_both_partial": [
"propext",
"Classical.choice",
"Quot.sound"
],
"Verif.Props.C82_current": [
"propext",
"Quot.sound"
],
"Verif.Props.C82_interval": [
"propext",
"Quot.sound"
],
"Verif.Props.C82_unset": [
"propext",
"Quot.sound"
],
"Verif.Props.C82_stale": [
"propext",
"Quot.sound"
],
"Verif.Props.C82_stale_example": [
"propext",
"Classical.choice",
"Quot.sound"
],
"Verif.Props.C82_example_values": [
"propext",
"Classical.choice",
"Quot.sound"
],
"Verif.Props.C82_example_list": [
"propext",
"Classical.choice",
"Quot.sound"
],
"Verif.Props.C82_example": [
"propext",
"Classical.choice",
"Quot.sound"
],
"Verif.Props.C83_run": [
"propext",
"Classical.choice",
"Quot.sound"
],
"Verif.Props.C83_default": [
"propext",
"Quot.sound"
],
"Verif.Props.C83_refuses": [
"propext",
"Classical.choice",
"Quot.sound"
],
"Verif.Props.C83_no_run": [
"propext",
"Classical.choice",
"Quot.sound"
],
"Verif.Props.C83_compare": [
"propext",
"Classical.choice",
"Quot.sound"
],
"Verif.Props.C83_maximum": [
"propext",
"Classical.choice",
"Quot.sound"
],
"Verif.Props.C83_improves": [
"propext",
"Classical.choice",
"Quot.sound"
],
"Verif.Props.C83_example_values": [
"propext",
"Classical.choice",
"Quot.sound"
],
"Verif.Props.C83_example_refused": [
"propext",
"Classical.choice",
"Quot.sound"
],
"Verif.Props.C84_example": [
"propext",
"Classical.choice",
"Quot.sound"
],
"Verif.Props.C84_single": [
"propext",
"Classical.choice",
"Quot.sound"
],
"Verif.Props.C84_generate": [
"propext",
"Classical.choice",
"Quot.sound"
],
"Verif.Props.C84_agree": [
"propext",
"Classical.choice",
"Quot.sound"
],
"Verif.Props.C84_query": [
"propext",
"Classical.choice",
"Quot.sound"
],
"Verif.Props.C84_necessity_partial": [
"propext",
"Classical.choice",
"Quot.sound"
],
"Verif.Props.C84_sufficiency_partial": [
"propext",
"Classical.choice",
"Quot.sound"
],
"Verif.Props.C84_necessity_sufficiency_partial": [
"propext",
"Classical.choice",
"Quot.sound"
],
"Verif.Props.C84_example_values": [
"propext",
"Classical.choice",
"Quot.sound"
],
"Verif.Props.C84_no_models": [
"propext",
"Classical.choice",
"Quot.sound"
],
"Verif.Props.C84_not_cast": [
"propext",
"Classical.choice",
"Quot.sound"
],
"Verif.Props.C85_observation": [
"propext",
"Classical.choice",
"Quot.sound"
],
"Verif.Props.C85_exchange": [
"propext",
"Classical.choice",
"Quot.sound"
],
"Verif.Props.C85_deletion": [
"propext",
"Classical.choice",
"Quot.sound"
],
"Verif.Props.C85_adjustment": [
"propext",
"Classical.choice",
"Quot.sound"
],
"Verif.Props.C85_observation_example": [
"propext",
"Classical.choice",
"Quot.sound"
],
"Verif.Props.C85_exchange_example": [
"propext",
"Classical.choice",
"Quot.sound"
],
"Verif.Props.C85_deletion_example": [
"propext",
"Classical.choice",
"Quot.sound"
],
"Verif.Props.C85_adjustment_example": [
"propext",
"Classical.choice",
"Quot.sound"
],
"Verif.Props.C85_confounded": [
"propext",
"Classical.choice",
"Quot.sound"
],
"Verif.Props.C86_rows_partial": [
"propext",
"Classical.choice",
"Quot.sound"
],
"Verif.Props.C86_count": [
"propext",
"Classical.choice",
"Quot.sound"
],
"Verif.Props.C86_refused": [
"propext",
"Classical.choice",
"Quot.sound"
],
"Verif.Props.C86_refused_example": [
"propext",
"Classical.choice",
"Quot.sound"
],
"Verif.Props.C86_caller": [
"propext",
"Classical.choice",
"Quot.sound"
],
"Verif.Props.C86_example": [
"propext",
"Classical.choice",
"Quot.sound"
],
"Verif.Props.C86_left_first": [
"propext",
"Quot.sound"
],
"Verif.Props.C86_repeated": [
"propext",
"Quot.sound"
],
"Verif.Props.C86_names": [
"propext",
"Quot.sound"
],
"Verif.Props.C86_caller_example": [
"propext"
],
"Verif.Props.C86_names_refused": [
"propext",
"Classical.choice",
"Quot.sound"
],
"Verif.Props.C86_exact": [
"propext",
"Classical.choice",
"Quot.sound"
],
"Verif.Props.C86_exact_example": [
"propext",
"Classical.choice",
"Quot.sound"
],
"Verif.Props.C87_frequencies": [
"propext",
"Classical.choice",
"Quot.sound"
],
"Verif.Props.C87_effect": [
"propext",
"Classical.choice",
"Quot.sound"
],
"Verif.Props.C87_identified": [
"propext",
"Classical.choice",
"Quot.sound"
],
"Verif.Props.C87_optimiser": [
"propext",
"Classical.choice",
"Quot.sound"
],
"Verif.Props.C87_example": [
"propext",
"Classical.choice",
"Quot.sound"
],
"Verif.Props.C88_save": [
"propext",
"Classical.choice",
"Quot.sound"
],
"Verif.Props.C88_refused": [
"propext",
"Classical.choice",
"Quot.sound"
],
"Verif.Props.C88_history": [
"propext",
"Classical.choice",
"Quot.sound"
],
"Verif.Props.C88_class": [
"propext",
"Classical.choice",
"Quot.sound"
],
"Verif.Props.C88_net_uai_partial": [
"propext",
"Classical.choice",
"Quot.sound"
],
"Verif.Props.C88_scm_uai_partial": [
"propext",
"Classical.choice",
"Quot.sound"
],
"Verif.Props.C88_net_bif_partial": [
"propext",
"Classical.choice",
"Quot.sound"
],
"Verif.Props.C88_scm_bif_partial": [
"propext",
"Classical.choice",
"Quot.sound"
],
"Verif.Props.C88_bif_order": [
"propext",
"Classical.choice",
"Quot.sound"
],
"Verif.Props.C88_scm_bif_refused": [
"propext",
"Classical.choice",
"Quot.sound"
],
"Verif.Props.C88_intervened_refused": [
"propext",
"Classical.choice",
"Quot.sound"
],
"Verif.Props.C88_parts": [
"propext",
"Classical.choice",
"Quot.sound"
],
"Verif.Props.C88_same_file": [
"propext",
"Classical.choice",
"Quot.sound"
],
"Verif.Props.C88_same_absolute": [
"propext",
"Classical.choice",
"Quot.sound"
],
"Verif.Props.C88_same_example": [
"propext",
"Classical.choice",
"Quot.sound"
],
"Verif.Props.C89_intervention": [
"propext",
"Classical.choice",
"Quot.sound"
],
"Verif.Props.C89_frechet_partial": [
"propext",
"Classical.choice",
"Quot.sound"
],
"Verif.Props.C89_both_partial": [
"propext",
"Classical.choice",
"Quot.sound"
],
"Verif.Props.C89_necessity_partial": [
"propext",
"Classical.choice",
"Quot.sound"
],
"Verif.Props.C89_sufficiency_partial": [
"propext",
"Classical.choice",
"Quot.sound"
],
"Verif.Props.C89_monotone_partial": [
"propext",
"Classical.choice",
"Quot.sound"
],
"Verif.Props.C89_gdcc_intervention": [
"propext",
"Classical.choice",
"Quot.sound"
],
"Verif.Props.C89_gdcc_both_partial": [
"propext",
"Classical.choice",
"Quot.sound"
],
"Verif.Props.C89_gdcc_adjusted_partial": [
"propext",
"Classical.choice",
"Quot.sound"
],
"Verif.Props.C89_example_values": [
"propext",
"Classical.choice",
"Quot.sound"
],
"Verif.Props.C89_example": [
"propext",
"Classical.choice",
"Quot.sound"
],
"Verif.Props.C89_gdcc_example": [
"propext",
"Classical.choice",
"Quot.sound"
],
"Verif.Props.C89_monotone_example": [
"propext",
"Classical.choice",
"Quot.sound"
],
"Verif.Props.C90_refused": [
"propext",
"Classical.choice",
"Quot.sound"
],
"Verif.Props.C90_iff": [
"propext",
"Classical.choice",
"Quot.sound"
],
"Verif.Props.C90_causation_iff": [
"propext",
"Classical.choice",
"Quot.sound"
],
"Verif.Props.C90_example": [
"propext",
"Classical.choice",
"Quot.sound"
],
"Verif.Props.front_door": [
"propext",
"Classical.choice",
"Quot.sound"
],
"Verif.Props.C91_front_door": [
"propext",
"Classical.choice",
"Quot.sound"
],
"Verif.Props.C91_effect": [
"propext",
"Classical.choice",
"Quot.sound"
],
"Verif.Props.C91_identified": [
"propext",
"Classical.choice",
"Quot.sound"
],
"Verif.Props.C91_front_door_example": [
"propext",
"Classical.choice",
"Quot.sound"
],
"Verif.Props.units_front": [
"propext",
"Classical.choice",
"Quot.sound"
],
"Verif.Props.C91_example": [
"propext",
"Classical.choice",
"Quot.sound"
],
"Verif.Props.C92_box": [
"propext",
"Classical.choice",
"Quot.sound"
],
"Verif.Props.C92_cells": [
"propext",
"Classical.choice",
"Quot.sound"
],
"Verif.Props.C92_cell_in": [
"propext",
"Classical.choice",
"Quot.sound"
],
"Verif.Props.C92_distribution": [
"propext",
"Classical.choice",
"Quot.sound"
],
"Verif.Props.C92_record": [
"propext",
"Classical.choice",
"Quot.sound"
],
"Verif.Props.C92_example": [
"propext",
"Classical.choice",
"Quot.sound"
],
"Verif.Props.C93_build": [
"propext",
"Classical.choice",
"Quot.sound"
],
"Verif.Props.C93_exists": [
"propext",
"Classical.choice",
"Quot.sound"
],
"Verif.Props.C93_unique": [
"propext",
"Classical.choice",
"Quot.sound"
],
"Verif.Props.C93_causal": [
"propext",
"Classical.choice",
"Quot.sound"
],
"Verif.Props.C93_causal_build": [
"propext",
"Classical.choice",
"Quot.sound"
],
"Verif.Props.C93_example": [
"propext",
"Classical.choice",
"Quot.sound"
],
"Verif.Props.C94_causal_to_bnet": [
"propext",
"Classical.choice",
"Quot.sound"
],
"Verif.Props.C94_bnet_to_causal": [
"propext",
"Classical.choice",
"Quot.sound"
],
"Verif.Props.C94_net_round_trip": [
"propext",
"Classical.choice",
"Quot.sound"
],
"Verif.Props.C94_model_round_trip": [
"propext",
"Classical.choice",
"Quot.sound"
],
"Verif.Props.C94_holds": [
"propext",
"Classical.choice",
"Quot.sound"
],
"Verif.Props.C94_example": [
"propext",
"Classical.choice",
"Quot.sound"
],
"Verif.Props.C94_unset": [
"propext",
"Quot.sound"
],
"Verif.Props.C94_unset_example": [
"propext",
"Classical.choice",
"Quot.sound"
],
"Verif.Props.C95_network": [
"propext",
"Classical.choice",
"Quot.sound"
],
"Verif.Props.C95_scm_text_fails": [
"propext",
"Quot.sound"
],
"Verif.Props.C95_scm_text_named": [
"propext"
],
"Verif.Props.C95_holds": [
"propext",
"Classical.choice",
"Quot.sound"
],
"Verif.Props.C95_example": [
"propext",
"Classical.choice",
"Quot.sound"
],
"Verif.Props.C96_sampled": [
"propext",
"Classical.choice",
"Quot.sound"
],
"Verif.Props.C96_distribution": [
"propext",
"Classical.choice",
"Quot.sound"
],
"Verif.Props.C96_columns": [
"propext",
"Classical.choice",
"Quot.sound"
],
"Verif.Props.C96_records_fail": [
"propext",
"Quot.sound"
],
"Verif.Props.C96_example": [
"propext",
"Classical.choice",
"Quot.sound"
],
"Verif.Props.C96_det_example": [
"propext",
"Classical.choice",
"Quot.sound"
],
"Verif.Props.C97_counts_iff": [
"propext",
"Classical.choice",
"Quot.sound"
],
"Verif.Props.C97_needed": [
"propext",
"Classical.choice",
"Quot.sound"
],
"Verif.Props.C97_step_fails": [
"propext",
"Classical.choice",
"Quot.sound"
],
"Verif.Props.C97_run_fails": [
"propext",
"Classical.choice",
"Quot.sound"
],
"Verif.Props.C97_complete_fails": [
"propext",
"Classical.choice",
"Quot.sound"
],
"Verif.Props.C97_default": [
"propext",
"Classical.choice",
"Quot.sound"
],
"Verif.Props.C97_example": [
"propext",
"Classical.choice",
"Quot.sound"
],
"Verif.Props.C97_holds": [
"propext",
"Classical.choice",
"Quot.sound"
],
"Verif.Props.C97_counts_example": [
"propext",
"Classical.choice",
"Quot.sound"
],
"Verif.Props.C98_marginal": [
"propext",
"Classical.choice",
"Quot.sound"
],
"Verif.Props.C98_posterior": [
"propext",
"Classical.choice",
"Quot.sound"
],
"Verif.Props.C98_consistent": [
"propext",
"Classical.choice",
"Quot.sound"
],
"Verif.Props.C98_unbiased": [
"propext",
"Classical.choice",
"Quot.sound"
],
"Verif.Props.C98_answers": [
"propext",
"Classical.choice",
"Quot.sound"
],
"Verif.Props.C98_no_answer": [
"propext",
"Classical.choice",
"Quot.sound"
],
"Verif.Props.C98_example": [
"propext",
"Classical.choice",
"Quot.sound"
],
"Verif.Props.C99_table_partial": [
"propext",
"Classical.choice",
"Quot.sound"
],
"Verif.Props.C99_run_partial": [
"propext",
"Classical.choice",
"Quot.sound"
],
"Verif.Props.C99_converges": [
"propext",
"Classical.choice",
"Quot.sound"
],
"Verif.Props.C99_example": [
"propext",
"Classical.choice",
"Quot.sound"
],
"Verif.Props.C99_zero": [
"propext",
"Classical.choice",
"Quot.sound"
],
"Verif.Props.C99_two": [
"propext",
"Classical.choice",
"Quot.sound"
],
"Verif.Props.C99_mixed": [
"propext",
"Classical.choice",
"Quot.sound"
],
"Verif.Props.C99_frozen": [
"propext",
"Classical.choice",
"Quot.sound"
],
"Verif.Props.C100_exact": [
"propext",
"Classical.choice",
"Quot.sound"
],
"Verif.Props.C100_dsep_nodes": [
"propext",
"Classical.choice",
"Quot.sound"
],
"Verif.Props.C100_blanket": [
"propext",
"Classical.choice",
"Quot.sound"
],
"Verif.Props.C100_query": [
"propext",
"Classical.choice",
"Quot.sound"
],
"Verif.Props.C100_example": [
"propext",
"Classical.choice",
"Quot.sound"
],
"Verif.Props.C100_observed_target": [
"propext",
"Quot.sound"
],
"Verif.Props.C101_rich": [
"propext",
"Classical.choice",
"Quot.sound"
],
"Verif.Props.C101_canonical_partial": [
"propext",
"Classical.choice",
"Quot.sound"
],
"Verif.Props.C101_default_store": [
"propext",
"Classical.choice",
"Quot.sound"
],
"Verif.Props.C101_interventional": [
"propext",
"Classical.choice",
"Quot.sound"
],
"Verif.Props.C101_counterfactual": [
"propext",
"Classical.choice",
"Quot.sound"
],
"Verif.Props.C101_causation": [
"propext",
"Classical.choice",
"Quot.sound"
],
"Verif.Props.C101_example": [
"propext",
"Classical.choice",
"Quot.sound"
],
"Verif.Props.C102_rich": [
"propext",
"Classical.choice",
"Quot.sound"
],
"Verif.Props.C102_canonical_partial": [
"propext",
"Classical.choice",
"Quot.sound"
],
"Verif.Props.C102_likelihood_partial": [
"propext",
"Classical.choice",
"Quot.sound"
],
"Verif.Props.C102_example": [
"propext",
"Classical.choice",
"Quot.sound"
],
"Verif.Props.C103_determined": [
"propext",
"Classical.choice",
"Quot.sound"
],
"Verif.Props.C103_effect": [
"propext",
"Classical.choice",
"Quot.sound"
],
"Verif.Props.C103_identified": [
"propext",
"Classical.choice",
"Quot.sound"
],
"Verif.Props.C103_example": [
"propext",
"Classical.choice",
"Quot.sound"
],
"Verif.Props.C103_two_models": [
"propext",
"Classical.choice",
"Quot.sound"
],
"Verif.Props.C103_confounded": [
"propext",
"Classical.choice",
"Quot.sound"
],
"Verif.Props.C104_undetermined": [
"propext",
"Classical.choice",
"Quot.sound"
],
"Verif.Props.C104_determined": [
"propext",
"Classical.choice",
"Quot.sound"
],
"Verif.Props.C104_exact": [
"propext",
"Classical.choice",
"Quot.sound"
],
"Verif.Props.C104_example": [
"propext",
"Classical.choice",
"Quot.sound"
],
"Verif.Props.C105_query": [
"propext",
"Classical.choice",
"Quot.sound"
],
"Verif.Props.C105_causal": [
"propext",
"Classical.choice",
"Quot.sound"
],
"Verif.Props.C105_counterfactual_partial": [
"propext",
"Classical.choice",
"Quot.sound"
],
"Verif.Props.C105_example": [
"propext",
"Classical.choice",
"Quot.sound"
],
"Verif.Props.C105_collision": [
"propext",
"Classical.choice",
"Quot.sound"
],
"Verif.Props.C106_states": [
"propext",
"Classical.choice",
"Quot.sound"
],
"Verif.Props.C106_empty": [],
"Verif.Props.C106_true_false": [
"propext",
"Classical.choice",
"Quot.sound"
],
"Verif.Props.C106_example": [
"propext",
"Classical.choice",
"Quot.sound"
],
"Verif.Props.C107_cells": [
"propext",
"Classical.choice",
"Quot.sound"
],
"Verif.Props.C107_back": [
"propext",
"Classical.choice",
"Quot.sound"
],
"Verif.Props.C107_refused": [
"propext",
"Classical.choice",
"Quot.sound"
],
"Verif.Props.C107_example": [
"propext"
],
"Verif.Props.C108_attained": [
"propext",
"Classical.choice",
"Quot.sound"
],
"Verif.Props.C108_attained_pair": [
"propext",
"Classical.choice",
"Quot.sound"
],
"Verif.Props.C108_exact": [
"propext",
"Classical.choice",
"Quot.sound"
],
"Verif.Props.C108_example": [
"propext",
"Classical.choice",
"Quot.sound"
],
"Verif.Props.C108_example_pair": [
"propext",
"Classical.choice",
"Quot.sound"
],
"Verif.Props.C109_disjoint": [
"propext",
"Classical.choice",
"Quot.sound"
],
"Verif.Props.C109_cover": [
"propext",
"Classical.choice",
"Quot.sound"
],
"Verif.Props.C109_pairs": [
"propext",
"Classical.choice",
"Quot.sound"
],
"Verif.Props.C109_length": [
"propext",
"Quot.sound"
],
"Verif.Props.C109_get": [
"propext",
"Classical.choice",
"Quot.sound"
],
"Verif.Props.C109_kinds": [
"propext",
"Classical.choice",
"Quot.sound"
],
"Verif.Props.C109_example": [
"propext",
"Classical.choice",
"Quot.sound"
],
"Verif.Props.C109_kinds_example": [
"propext",
"Classical.choice",
"Quot.sound"
],
"Verif.Props.C110_positions": [
"propext",
"Classical.choice",
"Quot.sound"
],
"Verif.Props.C110_labels": [
"propext",
"Classical.choice",
"Quot.sound"
],
"Verif.Props.C110_steps": [
"propext",
"Classical.choice",
"Quot.sound"
],
"Verif.Props.C110_example": [],
"Verif.Props.C111_accepted": [
"propext",
"Classical.choice",
"Quot.sound"
],
"Verif.Props.C111_refused": [
"propext",
"Quot.sound"
],
"Verif.Props.C111_closed": [
"propext",
"Classical.choice",
"Quot.sound"
],
"Verif.Props.C111_copies": [],
"Verif.Props.C111_model": [
"propext",
"Classical.choice",
"Quot.sound"
],
"Verif.Props.C111_example": [
"propext",
"Quot.sound"
],
"Verif.Props.C112_alone_partial": [
"propext",
"Quot.sound"
],
"Verif.Props.C112_values_partial": [
"propext",
"Quot.sound"
],
"Verif.Props.C112_write_partial": [
"propext",
"Classical.choice",
"Quot.sound"
],
"Verif.Props.C112_copy": [
"propext",
"Classical.choice",
"Quot.sound"
],
"Verif.Props.C112_intervention": [
"propext",
"Classical.choice",
"Quot.sound"
],
"Verif.Props.C112_intervened_partial": [
"propext",
"Classical.choice",
"Quot.sound"
],
"Verif.Props.C112_renamed_partial": [
"propext",
"Classical.choice",
"Quot.sound"
],
"Verif.Props.C112_example": [
"propext",
"Quot.sound"
],
"Verif.Props.C113_refused": [
"propext",
"Quot.sound"
],
"Verif.Props.C113_combined": [
"propext",
"Quot.sound"
],
"Verif.Props.C113_one_store": [
"propext",
"Classical.choice",
"Quot.sound"
],
"Verif.Props.C113_answered": [
"propext",
"Classical.choice",
"Quot.sound"
],
"Verif.Props.C113_answers_partial": [
"propext",
"Classical.choice",
"Quot.sound"
],
"Verif.Props.C113_exact": [
"propext",
"Classical.choice",
"Quot.sound"
],
"Verif.Props.C113_em_partial": [
"propext",
"Classical.choice",
"Quot.sound"
],
"Verif.Props.C113_em_refused": [
"propext",
"Classical.choice",
"Quot.sound"
],
"Verif.Props.C113_asked": [
"propext",
"Classical.choice",
"Quot.sound"
],
"Verif.Props.C113_learnt": [
"propext",
"Classical.choice",
"Quot.sound"
],
"Verif.Props.C113_example": [
"propext",
"Classical.choice",
"Quot.sound"
],
"Verif.Props.C114_marginal": [
"propext",
"Classical.choice",
"Quot.sound"
],
"Verif.Props.C114_chain": [
"propext",
"Classical.choice",
"Quot.sound"
],
"Verif.Props.C114_zero": [
"propext",
"Classical.choice",
"Quot.sound"
],
"Verif.Props.C114_order": [
"propext",
"Classical.choice",
"Quot.sound"
],
"Verif.Props.C114_condition": [
"propext",
"Classical.choice",
"Quot.sound"
],
"Verif.Props.C114_total": [
"propext",
"Classical.choice",
"Quot.sound"
],
"Verif.Props.C114_bayes": [
"propext",
"Classical.choice",
"Quot.sound"
],
"Verif.Props.C114_do_marginal": [
"propext",
"Classical.choice",
"Quot.sound"
],
"Verif.Props.C114_do_chain": [
"propext",
"Classical.choice",
"Quot.sound"
],
"Verif.Props.C114_do_order": [
"propext",
"Classical.choice",
"Quot.sound"
],
"Verif.Props.C114_asked": [
"propext",
"Classical.choice",
"Quot.sound"
],
"Verif.Props.C114_example": [
"propext",
"Classical.choice",
"Quot.sound"
],
"Verif.Props.C115_name": [
"propext",
"Classical.choice",
"Quot.sound"
],
"Verif.Props.C115_equation_name": [
"propext",
"Classical.choice",
"Quot.sound"
],
"Verif.Props.C115_kinds": [
"propext",
"Classical.choice",
"Quot.sound"
],
"Verif.Props.C115_table": [
"propext",
"Classical.choice",
"Quot.sound"
],
"Verif.Props.C115_equation": [
"propext",
"Classical.choice",
"Quot.sound"
],
"Verif.Props.C115_interval": [
"propext",
"Classical.choice",
"Quot.sound"
],
"Verif.Props.C115_network": [
"propext",
"Classical.choice",
"Quot.sound"
],
"Verif.Props.C115_causal": [
"propext",
"Classical.choice",
"Quot.sound"
],
"Verif.Props.C115_show": [
"propext",
"Classical.choice",
"Quot.sound"
],
"Verif.Props.C115_text": [
"propext",
"Classical.choice",
"Quot.sound"
],
"Verif.Props.C115_not_shown": [
"propext",
"Classical.choice",
"Quot.sound"
],
"Verif.Props.C115_network_text": [
"propext",
"Classical.choice",
"Quot.sound"
],
"Verif.Props.C115_comma": [
"propext",
"Classical.choice",
"Quot.sound"
],
"Verif.Props.C116_envelope": [
"propext",
"Classical.choice",
"Quot.sound"
],
"Verif.Props.C116_same": [
"propext",
"Classical.choice",
"Quot.sound"
],
"Verif.Props.C116_union": [
"propext",
"Classical.choice",
"Quot.sound"
],
"Verif.Props.C116_restrict": [
"propext",
"Classical.choice",
"Quot.sound"
],
"Verif.Props.C116_query": [
"propext",
"Classical.choice",
"Quot.sound"
],
"Verif.Props.C116_add": [
"propext",
"Classical.choice",
"Quot.sound"
],
"Verif.Props.C116_tables": [
"propext",
"Classical.choice",
"Quot.sound"
],
"Verif.Props.C116_example": [
"propext",
"Classical.choice",
"Quot.sound"
],
"Verif.Props.C116_learnt": [
"propext",
"Classical.choice",
"Quot.sound"
],
"Verif.Props.C117_worlds": [
"propext",
"Classical.choice",
"Quot.sound"
],
"Verif.Props.C117_composition": [
"propext",
"Classical.choice",
"Quot.sound"
],
"Verif.Props.C117_marginal": [
"propext",
"Classical.choice",
"Quot.sound"
],
"Verif.Props.C117_interventional": [
"propext",
"Classical.choice",
"Quot.sound"
],
"Verif.Props.C117_average": [
"propext",
"Classical.choice",
"Quot.sound"
],
"Verif.Props.C117_example": [
"propext",
"Classical.choice",
"Quot.sound"
],
"Verif.Props.C117_example_composition": [
"propext",
"Classical.choice",
"Quot.sound"
],
"Verif.Props.C118_operators_partial": [
"propext",
"Classical.choice",
"Quot.sound"
],
"Verif.Props.C118_answered": [
"propext",
"Classical.choice",
"Quot.sound"
],
"Verif.Props.C118_refused": [
"propext",
"Quot.sound"
],
"Verif.Props.C118_exceptions": [
"propext",
"Quot.sound"
],
"Verif.Props.C118_combine_all": [
"propext",
"Quot.sound"
],
"Verif.Props.C118_few": [
"propext",
"Quot.sound"
],
"Verif.Props.C118_pow": [
"propext",
"Quot.sound"
],
"Verif.Props.C118_labels": [
"propext",
"Classical.choice",
"Quot.sound"
],
"Verif.Props.C118_type_error": [
"propext",
"Classical.choice",
"Quot.sound"
],
"Verif.Props.C118_not_product": [
"propext",
"Classical.choice",
"Quot.sound"
],
"Verif.Props.C118_wrong": [
"propext",
"Classical.choice",
"Quot.sound"
],
"Verif.Props.C118_example": [
"propext",
"Classical.choice",
"Quot.sound"
],
"Verif.Props.C119_list": [
"propext"
],
"Verif.Props.C119_lists": [
"propext",
"Quot.sound"
],
"Verif.Props.C119_exact": [
"propext",
"Classical.choice",
"Quot.sound"
],
"Verif.Props.C119_conditional": [
"propext",
"Classical.choice",
"Quot.sound"
],
"Verif.Props.C119_same": [
"propext",
"Classical.choice",
"Quot.sound"
],
"Verif.Props.C119_causal": [
"propext",
"Classical.choice",
"Quot.sound"
],
"Verif.Props.C119_counterfactual": [
"propext",
"Quot.sound"
],
"Verif.Props.C119_frequency": [
"propext",
"Classical.choice",
"Quot.sound"
],
"Verif.Props.C119_separated": [
"propext",
"Classical.choice",
"Quot.sound"
],
"Verif.Props.C119_connected": [
"propext",
"Quot.sound"
],
"Verif.Props.C119_dcon_partial": [
"propext",
"Classical.choice",
"Quot.sound"
],
"Verif.Props.C119_container_refused": [
"propext",
"Classical.choice",
"Quot.sound"
],
"Verif.Props.C119_not_string": [
"propext",
"Classical.choice",
"Quot.sound"
],
"Verif.Props.C119_tuple": [
"propext",
"Quot.sound"
],
"Verif.Props.C119_asked": [
"propext",
"Classical.choice",
"Quot.sound"
],
"Verif.Props.C119_asked_graph": [
"propext"
],
"Verif.Props.C119_example": [
"propext",
"Classical.choice",
"Quot.sound"
],
"Verif.Props.C120_elapsed": [
"propext",
"Quot.sound"
],
"Verif.Props.C120_refused": [
"propext",
"Quot.sound"
],
"Verif.Props.C120_reading": [
"propext",
"Quot.sound"
],
"Verif.Props.C120_one_watch": [
"propext",
"Quot.sound"
],
"Verif.Props.C120_monotone": [
"propext",
"Classical.choice",
"Quot.sound"
],
"Verif.Props.C120_example": [
"propext",
"Quot.sound"
],
"Verif.Props.C121_text": [
"propext",
"Classical.choice",
"Quot.sound"
],
"Verif.Props.C121_same": [
"propext",
"Classical.choice",
"Quot.sound"
],
"Verif.Props.C121_every": [
"propext",
"Classical.choice",
"Quot.sound"
],
"Verif.Props.C121_refused": [
"propext",
"Classical.choice",
"Quot.sound"
],
"Verif.Props.C121_outside": [
"propext",
"Classical.choice",
"Quot.sound"
],
"Verif.Props.C121_linear": [
"propext",
"Classical.choice",
"Quot.sound"
],
"Verif.Props.C121_answered": [
"propext",
"Classical.choice",
"Quot.sound"
],
"Verif.Props.C121_example": [
"propext",
"Classical.choice",
"Quot.sound"
],
"Verif.Props.C122_drawn": [
"propext",
"Classical.choice",
"Quot.sound"
],
"Verif.Props.C122_readable": [
"propext",
"Quot.sound"
],
"Verif.Props.C122_refused": [
"propext",
"Quot.sound"
],
"Verif.Props.C122_stranger": [
"propext",
"Quot.sound"
],
"Verif.Props.C122_default": [
"propext",
"Classical.choice",
"Quot.sound"
],
"Verif.Props.C122_example": [
"propext",
"Classical.choice",
"Quot.sound"
]
}