'Verif.Rb.MapApi.map_history' depends on axioms: [propext, Classical.choice, Quot.sound]
'Verif.Rb.MapApi.spec_deterministic' depends on axioms: [propext]
'Verif.Rb.Container.calls_return' depends on axioms: [propext, Classical.choice, Quot.sound]
'Verif.Rb.Container.exists_reach' depends on axioms: [propext, Classical.choice, Quot.sound]
'Verif.Rb.Container.exists_reach_257' depends on axioms: [propext, Classical.choice, Quot.sound]
'Verif.Rb.SetApi.set_history' depends on axioms: [propext, Classical.choice, Quot.sound]
'Verif.Rb.Container.iteration' depends on axioms: [propext, Classical.choice, Quot.sound]
'Verif.Rb.Container.iteration_covers_memory' depends on axioms: [propext, Classical.choice, Quot.sound]
'Verif.Rb.Container.depth_logarithmic' depends on axioms: [propext, Classical.choice, Quot.sound]
'Verif.Rb.Container.comparisons_logarithmic' depends on axioms: [propext, Classical.choice, Quot.sound]
'Verif.Rb.Container.lower_bound_first' depends on axioms: [propext, Classical.choice, Quot.sound]
'Verif.Rb.Container.upper_bound_first_partial' depends on axioms: [propext, Classical.choice, Quot.sound]
'Verif.Rb.Container.upper_bound_wrong_when_absent' depends on axioms: [propext, Classical.choice, Quot.sound]
'Verif.Rb.Container.upper_bound_counterexample' depends on axioms: [propext, Classical.choice, Quot.sound]
'Verif.Rb.Container.upper_bound_computes' depends on axioms: [propext, Classical.choice, Quot.sound]
'Verif.Rb.Container.rbtree_upper_bound_first' depends on axioms: [propext, Classical.choice, Quot.sound]
'Verif.Rb.Container.insert_spec' depends on axioms: [propext, Classical.choice, Quot.sound]
'Verif.Rb.Container.erase_spec' depends on axioms: [propext, Classical.choice, Quot.sound]
'Verif.Rb.Container.insert_keeps_elements' depends on axioms: [propext, Classical.choice, Quot.sound]
'Verif.Rb.Container.copy_is_deep' depends on axioms: [propext, Classical.choice, Quot.sound]
'Verif.Rb.Container.assign_is_deep' depends on axioms: [propext, Classical.choice, Quot.sound]
'Verif.Rb.Container.independent' depends on axioms: [propext, Classical.choice, Quot.sound]
'Verif.Rb.Container.self_assign_empties' depends on axioms: [propext, Classical.choice, Quot.sound]
'Verif.Rb.Container.self_assign_keeps_empty_partial' depends on axioms: [propext, Classical.choice, Quot.sound]
'Verif.Rb.Container.self_assign_counterexample' depends on axioms: [propext, Classical.choice, Quot.sound]
'Verif.Rb.Multi.insert_equal_stable' depends on axioms: [propext, Classical.choice, Quot.sound]
'Verif.Rb.Multi.multi_iteration' depends on axioms: [propext, Classical.choice, Quot.sound]
'Verif.Rb.Multi.multi_bounds' depends on axioms: [propext, Classical.choice, Quot.sound]
'Verif.Rb.Multi.count_bounds_partial' depends on axioms: [propext, Classical.choice, Quot.sound]
'Verif.Rb.Multi.count_wrong_for_many' depends on axioms: [propext, Classical.choice, Quot.sound]
'Verif.Rb.Multi.count_unique_partial' depends on axioms: [propext, Classical.choice, Quot.sound]
'Verif.Rb.Multi.count_counterexample' depends on axioms: [propext, Classical.choice, Quot.sound]
'Verif.Rb.Container.iterators_inverse' depends on axioms: [propext, Classical.choice, Quot.sound]
'Verif.Rb.Container.clear_frees_exactly' depends on axioms: [propext, Classical.choice, Quot.sound]
'Verif.Rb.Container.destroy_frees_exactly' depends on axioms: [propext, Classical.choice, Quot.sound]
'Verif.Rb.Container.no_leak' depends on axioms: [propext, Classical.choice, Quot.sound]
'Verif.Rb.Container.erase_frees_exactly' depends on axioms: [propext, Classical.choice, Quot.sound]
'Verif.Seq.ListProps.list_history' depends on axioms: [propext, Classical.choice, Quot.sound]
'Verif.Seq.ListProps.new_list_history' depends on axioms: [propext, Classical.choice, Quot.sound]
'Verif.Seq.ListProps.call_returns' depends on axioms: [propext, Classical.choice, Quot.sound]
'Verif.Seq.ListProps.backward_mirrors_forward' depends on axioms: [propext, Classical.choice, Quot.sound]
'Verif.Seq.ListProps.insert_range_inserts' depends on axioms: [propext, Classical.choice, Quot.sound]
'Verif.Seq.ListProps.insert_n_inserts' depends on axioms: [propext, Classical.choice, Quot.sound]
'Verif.Seq.ListProps.insert_list_inserts' depends on axioms: [propext, Classical.choice, Quot.sound]
'Verif.Seq.ListProps.insert_returns_new' depends on axioms: [propext, Classical.choice, Quot.sound]
'Verif.Seq.ListProps.erase_removes' depends on axioms: [propext, Classical.choice, Quot.sound]
'Verif.Seq.ListProps.erase_range_partial' depends on axioms: [propext, Classical.choice, Quot.sound]
'Verif.Seq.ListProps.erase_range_wrong' depends on axioms: [propext, Classical.choice, Quot.sound]
'Verif.Seq.ListProps.erase_empty_range_ub' depends on axioms: [propext, Classical.choice, Quot.sound]
'Verif.Seq.ListProps.clear_partial' depends on axioms: [propext, Classical.choice, Quot.sound]
'Verif.Seq.ListProps.use_after_clear_ub' depends on axioms: [propext, Classical.choice, Quot.sound]
'Verif.Seq.ListProps.reverse_reverses' depends on axioms: [propext, Classical.choice, Quot.sound]
'Verif.Seq.ListProps.remove_if_removes' depends on axioms: [propext, Classical.choice, Quot.sound]
'Verif.Seq.ListProps.remove_removes_partial' depends on axioms: [propext, Classical.choice, Quot.sound]
'Verif.Seq.ListProps.remove_own_element_ub' depends on axioms: [propext, Classical.choice, Quot.sound]
'Verif.Seq.ListProps.unique_keeps_first_of_runs' depends on axioms: [propext, Classical.choice, Quot.sound]
'Verif.Seq.ListProps.merge_merges' depends on axioms: [propext, Classical.choice, Quot.sound]
'Verif.Seq.ListProps.splice_moves_partial' depends on axioms: [propext, Classical.choice, Quot.sound]
'Verif.Seq.ListProps.splice_within_partial' depends on axioms: [propext, Classical.choice, Quot.sound]
'Verif.Seq.ListProps.splice_all_moves_partial' depends on axioms: [propext, Classical.choice, Quot.sound]
'Verif.Seq.ListProps.splice_one_moves' depends on axioms: [propext, Classical.choice, Quot.sound]
'Verif.Seq.ListProps.splice_empty_range_breaks' depends on axioms: [propext, Classical.choice, Quot.sound]
'Verif.Seq.ListProps.splice_all_empty_breaks' depends on axioms: [propext, Classical.choice, Quot.sound]
'Verif.Seq.ListProps.splice_to_own_end_loses' depends on axioms: [propext, Classical.choice, Quot.sound]
'Verif.Seq.ListProps.swap_exchanges_partial' depends on axioms: [propext, Classical.choice, Quot.sound]
'Verif.Seq.ListProps.swap_empty_breaks' depends on axioms: [propext, Classical.choice, Quot.sound]
'Verif.Seq.ListProps.resize_resizes_partial' depends on axioms: [propext, Classical.choice, Quot.sound]
'Verif.Seq.ListProps.resize_zero_keeps' depends on axioms: [propext, Classical.choice, Quot.sound]
'Verif.Seq.FwdProps.list_history' depends on axioms: [propext, Classical.choice, Quot.sound]
'Verif.Seq.FwdProps.new_list_history' depends on axioms: [propext, Classical.choice, Quot.sound]
'Verif.Seq.FwdProps.call_returns' depends on axioms: [propext, Classical.choice, Quot.sound]
'Verif.Seq.FwdProps.insert_after_returns_new' depends on axioms: [propext, Classical.choice, Quot.sound]
'Verif.Seq.FwdProps.erase_after_removes' depends on axioms: [propext, Classical.choice, Quot.sound]
'Verif.Seq.FwdProps.insert_n_own_element' depends on axioms: [propext, Classical.choice, Quot.sound]
'Verif.Seq.FwdProps.splice_moves_partial' depends on axioms: [propext, Classical.choice, Quot.sound]
'Verif.Seq.FwdProps.splice_within_before_partial' depends on axioms: [propext, Classical.choice, Quot.sound]
'Verif.Seq.FwdProps.splice_within_behind_partial' depends on axioms: [propext, Classical.choice, Quot.sound]
'Verif.Seq.FwdProps.splice_all_moves_partial' depends on axioms: [propext, Classical.choice, Quot.sound]
'Verif.Seq.FwdProps.splice_one_moves' depends on axioms: [propext, Classical.choice, Quot.sound]
'Verif.Seq.FwdProps.splice_one_within_partial' depends on axioms: [propext, Classical.choice, Quot.sound]
'Verif.Seq.FwdProps.splice_all_empty_loses' depends on axioms: [propext, Classical.choice, Quot.sound]
'Verif.Seq.FwdProps.splice_empty_range_shares' depends on axioms: [propext, Classical.choice, Quot.sound]
'Verif.Seq.FwdProps.splice_one_behind_itself_loses' depends on axioms: [propext, Classical.choice, Quot.sound]
'Verif.Seq.FwdProps.splice_to_own_start_loses' depends on axioms: [propext, Classical.choice, Quot.sound]
'Verif.Seq.FwdProps.reverse_reverses' depends on axioms: [propext, Classical.choice, Quot.sound]
'Verif.Seq.BwdProps.list_history_partial' depends on axioms: [propext, Classical.choice, Quot.sound]
'Verif.Seq.BwdProps.new_list_history_partial' depends on axioms: [propext, Classical.choice, Quot.sound]
'Verif.Seq.BwdProps.contents_history_partial' depends on axioms: [propext, Classical.choice, Quot.sound]
'Verif.Seq.BwdProps.call_returns' depends on axioms: [propext, Classical.choice, Quot.sound]
'Verif.Seq.BwdProps.insert_after_returns_new' depends on axioms: [propext, Classical.choice, Quot.sound]
'Verif.Seq.BwdProps.erase_after_removes' depends on axioms: [propext, Classical.choice, Quot.sound]
'Verif.Seq.BwdProps.insert_n_own_element' depends on axioms: [propext, Classical.choice, Quot.sound]
'Verif.Seq.BwdProps.clear_restores' depends on axioms: [propext, Classical.choice, Quot.sound]
'Verif.Seq.BwdProps.reverse_reverses_partial' depends on axioms: [propext, Classical.choice, Quot.sound]
'Verif.Seq.BwdProps.insert_range_at_end_loses_end' depends on axioms: [propext, Classical.choice, Quot.sound]
'Verif.Seq.BwdProps.pop_last_element_breaks' depends on axioms: [propext, Classical.choice, Quot.sound]
'Verif.Seq.BwdProps.reverse_empty_breaks' depends on axioms: [propext, Classical.choice, Quot.sound]
'Verif.Seq.LazyProps.queue_history' depends on axioms: [propext, Classical.choice, Quot.sound]
'Verif.Seq.LazyProps.new_queue_history' depends on axioms: [propext, Classical.choice, Quot.sound]
'Verif.Seq.LazyProps.fifo' depends on axioms: [propext, Classical.choice, Quot.sound]
'Verif.Seq.LazyProps.pop_then_push_reuses' depends on axioms: [propext, Classical.choice, Quot.sound]
'Verif.Seq.LazyProps.call_returns' depends on axioms: [propext, Classical.choice, Quot.sound]
'Verif.Seq.LazyProps.insert_after_returns_new' depends on axioms: [propext, Classical.choice, Quot.sound]
'Verif.Seq.LazyProps.erase_after_removes' depends on axioms: [propext, Classical.choice, Quot.sound]
'Verif.Seq.LazyProps.insert_n_own_element' depends on axioms: [propext, Classical.choice, Quot.sound]
'Verif.Seq.LazyProps.roll_head_rolls' depends on axioms: [propext, Classical.choice, Quot.sound]
'Verif.Seq.LazyProps.roll_head_empty' depends on axioms: [propext, Classical.choice, Quot.sound]
'Verif.Seq.LazyProps.cleanup_frees_partial' depends on axioms: [propext, Classical.choice, Quot.sound]
'Verif.Seq.LazyProps.destroy_frees_partial' depends on axioms: [propext, Classical.choice, Quot.sound]
'Verif.Seq.LazyProps.cleanup_double_destroys' depends on axioms: [propext, Classical.choice, Quot.sound]
'Verif.Seq.LazyProps.destroy_double_destroys' depends on axioms: [propext, Classical.choice, Quot.sound]
'Verif.Seq.LazyProps.push_pop_destroy_ub' depends on axioms: [propext, Classical.choice, Quot.sound]
'Verif.Seq.LazyProps.clear_destroy_ub' depends on axioms: [propext, Classical.choice, Quot.sound]
'Verif.Vec.VecProps.vector_history' depends on axioms: [propext, Classical.choice, Quot.sound]
'Verif.Vec.VecProps.new_vector_history' depends on axioms: [propext, Classical.choice, Quot.sound]
'Verif.Vec.VecProps.call_returns' depends on axioms: [propext, Classical.choice, Quot.sound]
'Verif.Vec.VecProps.slots_exactly' depends on axioms: [propext, Classical.choice, Quot.sound]
'Verif.Vec.VecProps.nothing_else' depends on axioms: [propext, Classical.choice, Quot.sound]
'Verif.Vec.VecProps.blocks_disjoint' depends on axioms: [propext, Classical.choice, Quot.sound]
'Verif.Vec.VecProps.destroy_releases' depends on axioms: [propext, Classical.choice, Quot.sound]
'Verif.Vec.VecProps.destroyed_all' depends on axioms: [propext, Classical.choice, Quot.sound]
'Verif.Vec.VecProps.vector_life' depends on axioms: [propext, Classical.choice, Quot.sound]
'Verif.Vec.VecProps.erase_empty_range_ub' depends on axioms: [propext, Classical.choice, Quot.sound]
'Verif.Vec.VecProps.insert_own_element_ub' depends on axioms: [propext, Classical.choice, Quot.sound]
'Verif.Vec.VecProps.assign_n_own_element_ub' depends on axioms: [propext, Classical.choice, Quot.sound]
'Verif.Vec.VecProps.assign_own_range_ub' depends on axioms: [propext, Classical.choice, Quot.sound]
'Verif.Vec.VecProps.erase_empty_range_partial' depends on axioms: [propext, Classical.choice, Quot.sound]
'Verif.Vec.VecProps.push_back_element' depends on axioms: [propext, Classical.choice, Quot.sound]
'Verif.Vec.VecProps.insert_element_partial' depends on axioms: [propext, Classical.choice, Quot.sound]
'Verif.Vec.VecProps.insert_own_element_wrong' depends on axioms: [propext, Classical.choice, Quot.sound]
'Verif.Vec.VecProps.insert_own_range_ub' depends on axioms: [propext, Classical.choice, Quot.sound]
'Verif.Vec.VecProps.reserve_contract' depends on axioms: [propext, Classical.choice, Quot.sound]
'Verif.Vec.VecProps.fits_no_reallocation' depends on axioms: [propext, Classical.choice, Quot.sound]
'Verif.Vec.VecProps.reserve_then' depends on axioms: [propext, Classical.choice, Quot.sound]
'Verif.Vec.VecProps.insert_keeps_before' depends on axioms: [propext, Classical.choice, Quot.sound]
'Verif.Vec.VecProps.reserve_capacity_moves' depends on axioms: [propext, Classical.choice, Quot.sound]
'Verif.Vec.FV.FVProps.slots_exactly' depends on axioms: [propext, Classical.choice, Quot.sound]
'Verif.Vec.FV.FVProps.nothing_else' depends on axioms: [propext, Classical.choice, Quot.sound]
'Verif.Vec.FV.FVProps.destroy_releases' depends on axioms: [propext, Classical.choice, Quot.sound]
'Verif.Vec.FV.FVProps.destroyed_all' depends on axioms: [propext, Classical.choice, Quot.sound]
'Verif.Vec.FV.FVProps.fixed_vector_life' depends on axioms: [propext, Classical.choice, Quot.sound]
'Verif.Vec.FV.FVProps.call_returns' depends on axioms: [propext, Classical.choice, Quot.sound]
'Verif.Vec.FV.FVProps.swap_longer_ub' depends on axioms: [propext, Classical.choice, Quot.sound]
'Verif.Vec.FV.FVProps.erase_empty_range_ub' depends on axioms: [propext, Classical.choice, Quot.sound]
'Verif.Vec.FV.FVProps.insert_own_element_ub' depends on axioms: [propext, Classical.choice, Quot.sound]
'Verif.Vec.FV.FVProps.assign_n_own_element_ub' depends on axioms: [propext, Classical.choice, Quot.sound]
'Verif.Vec.FV.FVProps.assign_own_range_ub' depends on axioms: [propext, Classical.choice, Quot.sound]
'Verif.Vec.FV.FVProps.fixed_vector_history' depends on axioms: [propext, Classical.choice, Quot.sound]
'Verif.Vec.FV.FVProps.new_fixed_vector_history' depends on axioms: [propext, Classical.choice, Quot.sound]
'Verif.Vec.FV.FVProps.push_back_truncates' depends on axioms: [propext, Classical.choice, Quot.sound]
'Verif.Vec.FV.FVProps.insert_truncates' depends on axioms: [propext, Classical.choice, Quot.sound]
'Verif.Vec.FV.FVProps.insert_range_truncates' depends on axioms: [propext, Classical.choice, Quot.sound]
'Verif.Vec.FV.FVProps.swap_exchanges_partial' depends on axioms: [propext, Classical.choice, Quot.sound]
'Verif.SVMap.SMProps.reach_observes' depends on axioms: [propext, Classical.choice, Quot.sound]
'Verif.SVMap.SMProps.dictionary_history_partial' depends on axioms: [propext, Classical.choice, Quot.sound]
'Verif.SVMap.SMProps.new_dictionary_history_partial' depends on axioms: [propext, Classical.choice, Quot.sound]
'Verif.SVMap.SMProps.search_wraps' depends on axioms: [propext, Classical.choice, Quot.sound]
'Verif.SVMap.SMProps.every_size' depends on axioms: [propext, Classical.choice, Quot.sound]
'Verif.SVMap.SMProps.find_misses_present' depends on axioms: [propext, Classical.choice, Quot.sound]
'Verif.SVMap.SMProps.call_returns' depends on axioms: [propext, Classical.choice, Quot.sound]
'Verif.SVMap.SMProps.nothing_else' depends on axioms: [propext, Classical.choice, Quot.sound]
'Verif.SVMap.SMProps.destroyed_all' depends on axioms: [propext, Classical.choice, Quot.sound]
'Verif.SVMap.SMProps.destroy_releases' depends on axioms: [propext, Classical.choice, Quot.sound]
'Verif.SVMap.SMProps.map_life_partial' depends on axioms: [propext, Classical.choice, Quot.sound]
'Verif.SVMap.SMProps.capacity_one_overflows' depends on axioms: [propext, Classical.choice, Quot.sound]
'Verif.SVMap.SMProps.count_inverted' depends on axioms: [propext, Classical.choice, Quot.sound]
'Verif.VMap.VMProps.find_finds' depends on axioms: [propext, Classical.choice, Quot.sound]
'Verif.VMap.VMProps.vcall_returns' depends on axioms: [propext, Classical.choice, Quot.sound]
'Verif.VMap.VMProps.at_absent_ub' depends on axioms: [propext, Classical.choice, Quot.sound]
'Verif.VMap.VMProps.count_absent_partial' depends on axioms: [propext, Classical.choice, Quot.sound]
'Verif.VMap.VMProps.count_present_diverges' depends on axioms: [propext, Classical.choice, Quot.sound]
'Verif.Bitset.test_reports' depends on axioms: [propext, Quot.sound]
'Verif.Bitset.set_sets_one_bit' depends on axioms: [propext, Classical.choice, Quot.sound]
'Verif.Bitset.reset_clears_one_bit' depends on axioms: [propext, Classical.choice, Quot.sound]
'Verif.Bitset.flip_flips_one_bit' depends on axioms: [propext, Classical.choice, Quot.sound]
'Verif.Bitset.set_value_assigns_partial' depends on axioms: [propext, Classical.choice, Quot.sound]
'Verif.Bitset.set_value_ors' depends on axioms: [propext, Classical.choice, Quot.sound]
'Verif.Bitset.set_false_does_nothing' depends on axioms: [propext, Classical.choice, Quot.sound]
'Verif.Bitset.set_value_assigns_false' depends on axioms: [propext, Classical.choice, Quot.sound]
'Verif.Bitset.ref_assign_bool' depends on axioms: [propext, Classical.choice, Quot.sound]
'Verif.Bitset.ref_get' depends on axioms: [propext, Quot.sound]
'Verif.Bitset.ref_not' depends on axioms: [propext, Quot.sound]
'Verif.Bitset.ref_flip' depends on axioms: [propext, Classical.choice, Quot.sound]
'Verif.Bitset.ref_assign_ref_effect' depends on axioms: [propext, Classical.choice, Quot.sound]
'Verif.Bitset.ref_assign_ref_partial' depends on axioms: [propext, Classical.choice, Quot.sound]
'Verif.Bitset.ref_assign_ref_false' depends on axioms: [propext, Classical.choice, Quot.sound]
'Verif.Bitset.set_all_pointwise' depends on axioms: [propext, Classical.choice, Quot.sound]
'Verif.Bitset.reset_all_pointwise' depends on axioms: [propext, Classical.choice, Quot.sound]
'Verif.Bitset.flip_all_pointwise' depends on axioms: [propext, Classical.choice, Quot.sound]
'Verif.Bitset.complement_pointwise' depends on axioms: [propext, Classical.choice, Quot.sound]
'Verif.Bitset.and_assign_pointwise' depends on axioms: [propext, Classical.choice, Quot.sound]
'Verif.Bitset.or_assign_pointwise' depends on axioms: [propext, Classical.choice, Quot.sound]
'Verif.Bitset.xor_assign_pointwise' depends on axioms: [propext, Classical.choice, Quot.sound]
'Verif.Bitset.assign_copies' depends on axioms: [propext, Classical.choice, Quot.sound]
'Verif.Bitset.shl_shifts' depends on axioms: [propext, Classical.choice, Quot.sound]
'Verif.Bitset.shr_shifts' depends on axioms: [propext, Classical.choice, Quot.sound]
'Verif.Bitset.shl_assign_shifts' depends on axioms: [propext, Classical.choice, Quot.sound]
'Verif.Bitset.shr_assign_shifts' depends on axioms: [propext, Classical.choice, Quot.sound]
'Verif.Bitset.all_iff' depends on axioms: [propext, Classical.choice, Quot.sound]
'Verif.Bitset.any_iff' depends on axioms: [propext, Classical.choice, Quot.sound]
'Verif.Bitset.none_iff' depends on axioms: [propext, Classical.choice, Quot.sound]
'Verif.Bitset.eq_iff' depends on axioms: [propext, Classical.choice, Quot.sound]
'Verif.Bitset.count_counts' depends on axioms: [propext, Classical.choice, Quot.sound]
'Verif.Bitset.to_ulong_low_bits' depends on axioms: [propext, Classical.choice, Quot.sound]
'Verif.Bitset.kernighan_popcount' depends on axioms: [propext, Classical.choice, Quot.sound]
'Verif.Bitset.all_zero_false' depends on axioms: [propext, Classical.choice, Quot.sound]
'Verif.Bitset.assign_width_preserves_partial' depends on axioms: [propext, Classical.choice, Quot.sound]
'Verif.Bitset.assign_width_effect' depends on axioms: [propext, Classical.choice, Quot.sound]
'Verif.Bitset.assign_width_preserves_false' depends on axioms: [propext, Classical.choice, Quot.sound]
'Verif.Bitset.from_ulong_bits' depends on axioms: [propext, Classical.choice, Quot.sound]
'Verif.Bitset.from_ulong_zero_oob' depends on axioms: [propext, Classical.choice, Quot.sound]
'Verif.Bitset.from_string_bits_partial' depends on axioms: [propext, Classical.choice, Quot.sound]
'Verif.Bitset.from_string_overflow' depends on axioms: [propext, Classical.choice, Quot.sound]
'Verif.Algo.find_if_returns_first_match' depends on axioms: [propext, Classical.choice, Quot.sound]
'Verif.Algo.find_returns_first_match' depends on axioms: [propext, Classical.choice, Quot.sound]
'Verif.Algo.find_if_not_returns_first_mismatch' depends on axioms: [propext, Classical.choice, Quot.sound]
'Verif.Algo.all_of_iff' depends on axioms: [propext, Classical.choice, Quot.sound]
'Verif.Algo.any_of_iff' depends on axioms: [propext, Classical.choice, Quot.sound]
'Verif.Algo.none_of_iff' depends on axioms: [propext, Classical.choice, Quot.sound]
'Verif.Algo.count_if_counts' depends on axioms: [propext, Classical.choice, Quot.sound]
'Verif.Algo.count_counts' depends on axioms: [propext, Classical.choice, Quot.sound]
'Verif.Algo.count_if_overflow' depends on axioms: [propext, Classical.choice, Quot.sound]
'Verif.Algo.search_returns_first_occurrence' depends on axioms: [propext, Classical.choice, Quot.sound]
'Verif.Algo.search_n_returns_first_run' depends on axioms: [propext, Classical.choice, Quot.sound]
'Verif.Algo.search_n_pred_returns_first_run_partial' depends on axioms: [propext, Classical.choice, Quot.sound]
'Verif.Algo.search_n_pred_wrong' depends on axioms: [propext, Classical.choice, Quot.sound]
'Verif.Algo.adjacent_find_returns_first' depends on axioms: [propext, Classical.choice, Quot.sound]
'Verif.Algo.equal3_iff' depends on axioms: [propext, Classical.choice, Quot.sound]
'Verif.Algo.equal4_iff' depends on axioms: [propext, Classical.choice, Quot.sound]
'Verif.Algo.equal4_eq_iff' depends on axioms: [propext, Classical.choice, Quot.sound]
'Verif.Algo.mismatch3_returns_first_difference' depends on axioms: [propext, Classical.choice, Quot.sound]
'Verif.Algo.mismatch4_returns_first_difference' depends on axioms: [propext, Classical.choice, Quot.sound]
'Verif.Algo.copy_copies' depends on axioms: [propext, Classical.choice, Quot.sound]
'Verif.Algo.copy_n_copies' depends on axioms: [propext, Classical.choice, Quot.sound]
'Verif.Algo.copy_n_nonpositive' depends on axioms: [propext, Classical.choice, Quot.sound]
'Verif.Algo.copy_if_copies' depends on axioms: [propext, Classical.choice, Quot.sound]
'Verif.Algo.copy_backward_copies' depends on axioms: [propext, Classical.choice, Quot.sound]
'Verif.Algo.remove_copy_if_copies' depends on axioms: [propext, Classical.choice, Quot.sound]
'Verif.Algo.remove_copy_copies' depends on axioms: [propext, Classical.choice, Quot.sound]
'Verif.Algo.remove_if_compacts' depends on axioms: [propext, Classical.choice, Quot.sound]
'Verif.Algo.remove_compacts' depends on axioms: [propext, Classical.choice, Quot.sound]
'Verif.Algo.fill_fills' depends on axioms: [propext, Classical.choice, Quot.sound]
'Verif.Algo.fill_n_fills' depends on axioms: [propext, Classical.choice, Quot.sound]
'Verif.Algo.fill_n_nonpositive' depends on axioms: [propext, Classical.choice, Quot.sound]
'Verif.Algo.generate_writes_successive_values' depends on axioms: [propext, Classical.choice, Quot.sound]
'Verif.Algo.generate_n_writes_successive_values' depends on axioms: [propext, Classical.choice, Quot.sound]
'Verif.Algo.replace_if_maps' depends on axioms: [propext, Classical.choice, Quot.sound]
'Verif.Algo.replace_maps' depends on axioms: [propext, Classical.choice, Quot.sound]
'Verif.Algo.replace_copy_if_maps' depends on axioms: [propext, Classical.choice, Quot.sound]
'Verif.Algo.replace_copy_maps' depends on axioms: [propext, Classical.choice, Quot.sound]
'Verif.Algo.transform_maps' depends on axioms: [propext, Classical.choice, Quot.sound]
'Verif.Algo.transform2_zips' depends on axioms: [propext, Classical.choice, Quot.sound]
'Verif.Algo.iota_writes_successors' depends on axioms: [propext, Classical.choice, Quot.sound]
'Verif.Algo.reverse_reverses' depends on axioms: [propext, Classical.choice, Quot.sound]
'Verif.Algo.reverse_copy_reverses' depends on axioms: [propext, Classical.choice, Quot.sound]
'Verif.Algo.swap_ranges_exchanges' depends on axioms: [propext, Classical.choice, Quot.sound]
'Verif.Algo.lower_bound_partition_point' depends on axioms: [propext, Classical.choice, Quot.sound]
'Verif.Algo.upper_bound_partition_point' depends on axioms: [propext, Classical.choice, Quot.sound]
'Verif.Algo.lower_bound_sorted' depends on axioms: [propext, Classical.choice, Quot.sound]
'Verif.Algo.upper_bound_sorted' depends on axioms: [propext, Classical.choice, Quot.sound]
'Verif.Algo.equal_range_sorted' depends on axioms: [propext, Classical.choice, Quot.sound]
'Verif.Algo.binary_search_sorted' depends on axioms: [propext, Classical.choice, Quot.sound]
'Verif.Algo.lower_bound_wrong_at_2_31' depends on axioms: [propext, Classical.choice, Quot.sound]
'Verif.Algo.is_sorted_until_returns_first_descent' depends on axioms: [propext, Classical.choice, Quot.sound]
'Verif.Algo.is_sorted_iff' depends on axioms: [propext, Classical.choice, Quot.sound]
'Verif.Algo.merge_writes' depends on axioms: [propext, Classical.choice, Quot.sound]
'Verif.Algo.merge_sorted_stable' depends on axioms: [propext, Classical.choice, Quot.sound]
'Verif.Algo.min_element_returns_first_min' depends on axioms: [propext, Classical.choice, Quot.sound]
'Verif.Algo.max_element_returns_first_max' depends on axioms: [propext, Classical.choice, Quot.sound]
'Verif.Algo.minmax_element_returns_extrema' depends on axioms: [propext, Classical.choice, Quot.sound]
'Verif.Algo.min_is_minimum' depends on axioms: [propext]
'Verif.Algo.max_is_maximum' depends on axioms: [propext]
'Verif.Algo.minmax_orders' depends on axioms: [propext]
'Verif.Algo.min_tie_returns_second' depends on axioms: [propext]
'Verif.Seq.ListProps.copy_copies' depends on axioms: [propext, Classical.choice, Quot.sound]
'Verif.Seq.ListProps.assign_copies_partial' depends on axioms: [propext, Classical.choice, Quot.sound]
'Verif.Seq.ListProps.construct_from_range' depends on axioms: [propext, Classical.choice, Quot.sound]
'Verif.Seq.ListProps.construct_n' depends on axioms: [propext, Classical.choice, Quot.sound]
'Verif.Seq.ListProps.assign_range_partial' depends on axioms: [propext, Classical.choice, Quot.sound]
'Verif.Seq.ListProps.assign_n_partial' depends on axioms: [propext, Classical.choice, Quot.sound]
'Verif.Seq.ListProps.assign_nonempty_ub' depends on axioms: [propext, Classical.choice, Quot.sound]
'Verif.Seq.ListProps.assign_range_nonempty_ub' depends on axioms: [propext, Classical.choice, Quot.sound]
'Verif.Seq.ListProps.assign_n_nonempty_ub' depends on axioms: [propext, Classical.choice, Quot.sound]
'Verif.Seq.ListProps.assign_nothing' depends on axioms: [propext, Classical.choice, Quot.sound]
'Verif.Seq.ListProps.self_assign_empties' depends on axioms: [propext, Classical.choice, Quot.sound]
'Verif.Seq.ListProps.equal_compares' depends on axioms: [propext, Classical.choice, Quot.sound]
'Verif.Seq.ListProps.not_equal_compares' depends on axioms: [propext, Classical.choice, Quot.sound]
'Verif.Seq.ListProps.equal_compares_values' depends on axioms: [propext, Classical.choice, Quot.sound]
'Verif.Seq.ListProps.no_leak' depends on axioms: [propext, Classical.choice, Quot.sound]
'Verif.Seq.ListProps.lists_disjoint' depends on axioms: [propext, Classical.choice, Quot.sound]
'Verif.Seq.ListProps.destroy_frees' depends on axioms: [propext, Classical.choice, Quot.sound]
'Verif.Seq.ListProps.elements_stay' depends on axioms: [propext, Classical.choice, Quot.sound]
'Verif.Seq.ListProps.elements_stay_or_go' depends on axioms: [propext, Classical.choice, Quot.sound]
'Verif.Seq.FwdProps.copy_copies' depends on axioms: [propext, Classical.choice, Quot.sound]
'Verif.Seq.FwdProps.assign_copies_partial' depends on axioms: [propext, Classical.choice, Quot.sound]
'Verif.Seq.FwdProps.construct_from_range' depends on axioms: [propext, Classical.choice, Quot.sound]
'Verif.Seq.FwdProps.construct_n' depends on axioms: [propext, Classical.choice, Quot.sound]
'Verif.Seq.FwdProps.assign_n_partial' depends on axioms: [propext, Classical.choice, Quot.sound]
'Verif.Seq.FwdProps.self_assign_empties' depends on axioms: [propext, Classical.choice, Quot.sound]
'Verif.Seq.FwdProps.assign_n_own_element_ub' depends on axioms: [propext, Classical.choice, Quot.sound]
'Verif.Seq.FwdProps.equal_compares' depends on axioms: [propext, Classical.choice, Quot.sound]
'Verif.Seq.FwdProps.not_equal_compares' depends on axioms: [propext, Classical.choice, Quot.sound]
'Verif.Seq.FwdProps.equal_compares_values' depends on axioms: [propext, Classical.choice, Quot.sound]
'Verif.Seq.FwdProps.no_leak' depends on axioms: [propext, Classical.choice, Quot.sound]
'Verif.Seq.FwdProps.lists_disjoint' depends on axioms: [propext, Classical.choice, Quot.sound]
'Verif.Seq.FwdProps.destroy_frees' depends on axioms: [propext, Classical.choice, Quot.sound]
'Verif.Seq.FwdProps.elements_stay' depends on axioms: [propext, Classical.choice, Quot.sound]
'Verif.Seq.FwdProps.elements_stay_or_go' depends on axioms: [propext, Classical.choice, Quot.sound]
'Verif.Seq.FwdProps.swap_swaps' depends on axioms: [propext, Classical.choice, Quot.sound]
'Verif.Seq.FwdProps.swap_self' depends on axioms: [propext, Classical.choice, Quot.sound]
'Verif.Algo.for_each_applies_in_order' depends on axioms: [propext, Classical.choice, Quot.sound]
'Verif.Algo.accumulate_folds' depends on axioms: [propext, Classical.choice, Quot.sound]
'Verif.Seq.BwdProps.construct_empty' depends on axioms: [propext, Classical.choice, Quot.sound]
'Verif.Seq.BwdProps.construct_n' depends on axioms: [propext, Classical.choice, Quot.sound]
'Verif.Seq.BwdProps.assign_n_partial' depends on axioms: [propext, Classical.choice, Quot.sound]
'Verif.Seq.BwdProps.copy_loses_end' depends on axioms: [propext, Classical.choice, Quot.sound]
'Verif.Seq.BwdProps.construct_from_range_loses_end' depends on axioms: [propext, Classical.choice, Quot.sound]
'Verif.Seq.BwdProps.assign_loses_end' depends on axioms: [propext, Classical.choice, Quot.sound]
'Verif.Seq.BwdProps.assign_range_loses_end' depends on axioms: [propext, Classical.choice, Quot.sound]
'Verif.Seq.BwdProps.self_assign_empties' depends on axioms: [propext, Classical.choice, Quot.sound]
'Verif.Seq.BwdProps.assign_n_own_element_ub' depends on axioms: [propext, Classical.choice, Quot.sound]
'Verif.Seq.BwdProps.equal_compares' depends on axioms: [propext, Classical.choice, Quot.sound]
'Verif.Seq.BwdProps.not_equal_compares' depends on axioms: [propext, Classical.choice, Quot.sound]
'Verif.Seq.BwdProps.equal_compares_values' depends on axioms: [propext, Classical.choice, Quot.sound]
'Verif.Seq.BwdProps.no_leak' depends on axioms: [propext, Classical.choice, Quot.sound]
'Verif.Seq.BwdProps.lists_disjoint' depends on axioms: [propext, Classical.choice, Quot.sound]
'Verif.Seq.BwdProps.destroy_frees' depends on axioms: [propext, Classical.choice, Quot.sound]
'Verif.Seq.BwdProps.elements_stay' depends on axioms: [propext, Classical.choice, Quot.sound]
'Verif.Seq.BwdProps.elements_stay_or_go' depends on axioms: [propext, Classical.choice, Quot.sound]
'Verif.Seq.BwdProps.swap_contents' depends on axioms: [propext, Classical.choice, Quot.sound]
'Verif.Seq.BwdProps.swap_swaps_partial' depends on axioms: [propext, Classical.choice, Quot.sound]
'Verif.Seq.BwdProps.swap_self' depends on axioms: [propext, Classical.choice, Quot.sound]
'Verif.Seq.BwdProps.swap_with_empty_breaks' depends on axioms: [propext, Classical.choice, Quot.sound]
'Verif.Seq.LazyProps.memory_high_water' depends on axioms: [propext, Classical.choice, Quot.sound]
'Verif.Seq.LazyProps.steady_state' depends on axioms: [propext, Classical.choice, Quot.sound]
'Verif.Seq.LazyProps.no_leak' depends on axioms: [propext, Classical.choice, Quot.sound]
'Verif.Seq.LazyProps.queues_disjoint' depends on axioms: [propext, Classical.choice, Quot.sound]
'Verif.Seq.LazyProps.copy_copies' depends on axioms: [propext, Classical.choice, Quot.sound]
'Verif.Seq.LazyProps.construct_n' depends on axioms: [propext, Classical.choice, Quot.sound]
'Verif.Seq.LazyProps.assign_copies_partial' depends on axioms: [propext, Classical.choice, Quot.sound]
'Verif.Seq.LazyProps.self_assign_empties' depends on axioms: [propext, Classical.choice, Quot.sound]
'Verif.Seq.LazyProps.swap_swaps_partial' depends on axioms: [propext, Classical.choice, Quot.sound]
'Verif.Seq.LazyProps.swap_self' depends on axioms: [propext, Classical.choice, Quot.sound]
'Verif.Seq.LazyProps.swap_with_empty_breaks' depends on axioms: [propext, Classical.choice, Quot.sound]
'Verif.Seq.LazyProps.elements_stay' depends on axioms: [propext, Classical.choice, Quot.sound]
'Verif.Vec.VecProps.copy_copies' depends on axioms: [propext, Classical.choice, Quot.sound]
'Verif.Vec.VecProps.construct_default' depends on axioms: [propext, Classical.choice, Quot.sound]
'Verif.Vec.VecProps.construct_n' depends on axioms: [propext, Classical.choice, Quot.sound]
'Verif.Vec.VecProps.construct_from_values' depends on axioms: [propext, Classical.choice, Quot.sound]
'Verif.Vec.VecProps.construct_from_range' depends on axioms: [propext, Classical.choice, Quot.sound]
'Verif.Vec.VecProps.assign_copies_partial' depends on axioms: [propext, Classical.choice, Quot.sound]
'Verif.Vec.VecProps.assign_n_partial' depends on axioms: [propext, Classical.choice, Quot.sound]
'Verif.Vec.VecProps.assign_range_partial' depends on axioms: [propext, Classical.choice, Quot.sound]
'Verif.Vec.VecProps.self_assign_empties' depends on axioms: [propext, Classical.choice, Quot.sound]
'Verif.Vec.VecProps.swap_swaps' depends on axioms: [propext, Classical.choice, Quot.sound]
'Verif.Vec.VecProps.equal_compares' depends on axioms: [propext, Classical.choice, Quot.sound]
'Verif.Vec.VecProps.equal_iff_same' depends on axioms: [propext, Classical.choice, Quot.sound]
'Verif.Vec.VecProps.insert_returns_new' depends on axioms: [propext, Classical.choice, Quot.sound]
'Verif.Vec.VecProps.insert_one_returns_new' depends on axioms: [propext, Classical.choice, Quot.sound]
'Verif.Vec.VecProps.insert_values_returns_new' depends on axioms: [propext, Classical.choice, Quot.sound]
'Verif.Vec.VecProps.insert_range_returns_new' depends on axioms: [propext, Classical.choice, Quot.sound]
'Verif.Vec.VecProps.erase_returns_next' depends on axioms: [propext, Classical.choice, Quot.sound]
'Verif.Vec.VecProps.erase_one_returns_next' depends on axioms: [propext, Classical.choice, Quot.sound]
'Verif.Vec.VecProps.independent' depends on axioms: [propext, Classical.choice, Quot.sound]
'Verif.Vec.FV.FVProps.erase_returns_next' depends on axioms: [propext, Classical.choice, Quot.sound]
'Verif.Vec.FV.FVProps.erase_empty_range_partial' depends on axioms: [propext, Classical.choice, Quot.sound]
'Verif.Vec.FV.FVProps.push_back_element' depends on axioms: [propext, Classical.choice, Quot.sound]
'Verif.Vec.FV.FVProps.insert_element_partial' depends on axioms: [propext, Classical.choice, Quot.sound]
'Verif.Vec.FV.FVProps.insert_own_element_wrong' depends on axioms: [propext, Classical.choice, Quot.sound]
'Verif.Vec.FV.FVProps.copy_copies' depends on axioms: [propext, Classical.choice, Quot.sound]
'Verif.Vec.FV.FVProps.construct_default' depends on axioms: [propext, Classical.choice, Quot.sound]
'Verif.Vec.FV.FVProps.construct_n' depends on axioms: [propext, Classical.choice, Quot.sound]
'Verif.Vec.FV.FVProps.construct_from_values' depends on axioms: [propext, Classical.choice, Quot.sound]
'Verif.Vec.FV.FVProps.construct_from_range' depends on axioms: [propext, Classical.choice, Quot.sound]
'Verif.Vec.FV.FVProps.assign_copies_partial' depends on axioms: [propext, Classical.choice, Quot.sound]
'Verif.Vec.FV.FVProps.assign_n_partial' depends on axioms: [propext, Classical.choice, Quot.sound]
'Verif.Vec.FV.FVProps.assign_range_partial' depends on axioms: [propext, Classical.choice, Quot.sound]
'Verif.Vec.FV.FVProps.self_assign_empties' depends on axioms: [propext, Classical.choice, Quot.sound]
'Verif.Vec.FV.FVProps.equal_compares' depends on axioms: [propext, Classical.choice, Quot.sound]
'Verif.Vec.FV.FVProps.independent' depends on axioms: [propext, Classical.choice, Quot.sound]
'Verif.SVMap.SMProps.at_absent_ub' depends on axioms: [propext, Classical.choice, Quot.sound]
'Verif.SVMap.SMProps.insert_new' depends on axioms: [propext, Classical.choice, Quot.sound]
'Verif.SVMap.SMProps.insert_present' depends on axioms: [propext, Classical.choice, Quot.sound]
'Verif.SVMap.SMProps.index_refers' depends on axioms: [propext, Classical.choice, Quot.sound]
'Verif.SVMap.SMProps.references_stable' depends on axioms: [propext, Classical.choice, Quot.sound]
'Verif.SVMap.SMProps.copy_copies' depends on axioms: [propext, Classical.choice, Quot.sound]
'Verif.SVMap.SMProps.independent' depends on axioms: [propext, Classical.choice, Quot.sound]
'Verif.VMap.VMProps.insert_new' depends on axioms: [propext, Classical.choice, Quot.sound]
'Verif.VMap.VMProps.insert_element' depends on axioms: [propext, Classical.choice, Quot.sound]
'Verif.VMap.VMProps.insert_present' depends on axioms: [propext, Classical.choice, Quot.sound]
'Verif.VMap.VMProps.index_refers' depends on axioms: [propext, Classical.choice, Quot.sound]
'Verif.VMap.VMProps.dictionary_history' depends on axioms: [propext, Classical.choice, Quot.sound]
'Verif.VMap.VMProps.new_dictionary_history' depends on axioms: [propext, Classical.choice, Quot.sound]
'Verif.Arr.ArrProps.array_history' depends on axioms: [propext, Classical.choice, Quot.sound]
'Verif.Arr.ArrProps.fill_own' depends on axioms: [propext, Classical.choice, Quot.sound]
'Verif.Arr.ArrProps.empty_front_back' depends on axioms: [propext, Quot.sound]
'Verif.Arr.ArrProps.equal_compares' depends on axioms: [propext, Classical.choice, Quot.sound]
'Verif.Arr.ArrProps.equal_iff_same' depends on axioms: [propext, Classical.choice, Quot.sound]
'Verif.Util.UtilProps.pair_swap' depends on axioms: [propext]
'Verif.Util.UtilProps.pair_assign' depends on axioms: [propext, Quot.sound]
'Verif.Util.UtilProps.pair_assign_converts' depends on axioms: [propext]
'Verif.Util.UtilProps.pair_equal' depends on axioms: [propext, Quot.sound]
'Verif.Util.UtilProps.distance_exact_partial' depends on axioms: [propext, Quot.sound]
'Verif.Util.UtilProps.distance_wraps' depends on axioms: [propext, Quot.sound]
'Verif.Traits.TraitsProps.isConst_iff_partial' depends on axioms: [propext]
'Verif.Traits.TraitsProps.isVolatile_iff_partial' depends on axioms: [propext]
'Verif.Traits.TraitsProps.isConst_rref' depends on axioms: [propext]
'Verif.Traits.TraitsProps.removeConst_spec' depends on axioms: [propext]
'Verif.Traits.TraitsProps.removeVolatile_spec' depends on axioms: [propext]
'Verif.Traits.TraitsProps.removeCv_spec' depends on axioms: [propext]
'Verif.Traits.TraitsProps.removeReference_spec' depends on axioms: [propext]
'Verif.Traits.TraitsProps.isIntegral_iff' depends on axioms: [propext, Classical.choice, Quot.sound]
'Verif.Traits.TraitsProps.isFloating_iff' depends on axioms: [propext, Classical.choice, Quot.sound]
'Verif.Traits.TraitsProps.isVoid_iff' depends on axioms: [propext]
'Verif.Traits.TraitsProps.isSigned_iff' depends on axioms: [propext, Classical.choice, Quot.sound]
'Verif.Traits.TraitsProps.isUnsigned_iff' depends on axioms: [propext, Classical.choice, Quot.sound]
'Verif.Traits.TraitsProps.signed_or_unsigned' depends on axioms: [propext, Classical.choice, Quot.sound]
'Verif.Traits.TraitsProps.isPointer_iff' depends on axioms: [propext]
'Verif.Traits.TraitsProps.isArray_iff' depends on axioms: [propext]
'Verif.Traits.TraitsProps.composite_iff' depends on axioms: [propext, Classical.choice, Quot.sound]
'Verif.Traits.TraitsProps.isSame_iff' depends on axioms: [propext]
'Verif.Traits.TraitsProps.categories_disjoint' depends on axioms: [propext]
'Verif.Rb.Weak.weak_calls_return_partial' depends on axioms: [propext, Classical.choice, Quot.sound]
'Verif.Rb.Weak.weak_iteration_partial' depends on axioms: [propext, Classical.choice, Quot.sound]
'Verif.Rb.Weak.weak_insert_partial' depends on axioms: [propext, Classical.choice, Quot.sound]
'Verif.Rb.Weak.weak_find_partial' depends on axioms: [propext, Classical.choice, Quot.sound]
'Verif.Rb.Weak.weak_lower_bound_partial' depends on axioms: [propext, Classical.choice, Quot.sound]
'Verif.Rb.Weak.weak_erase_partial' depends on axioms: [propext, Classical.choice, Quot.sound]
'Verif.Rb.Weak.find_misses_equivalent' depends on axioms: [propext, Classical.choice, Quot.sound]
'Verif.Rb.Weak.erase_loses_equivalent' depends on axioms: [propext, Classical.choice, Quot.sound]
'Verif.Rb.Ref.own_key_is_a_copy' depends on axioms: [propext, Classical.choice, Quot.sound]
'Verif.Rb.Ref.erase_own_key' depends on axioms: [propext, Classical.choice, Quot.sound]
'Verif.Rb.Ref.insert_own_element' depends on axioms: [propext, Classical.choice, Quot.sound]
'Verif.Rb.Ref.subscript_own_key' depends on axioms: [propext, Classical.choice, Quot.sound]
'Verif.Rb.MapAt.at_present_partial' depends on axioms: [propext, Classical.choice, Quot.sound]
'Verif.Rb.MapAt.at_absent_ub' depends on axioms: [propext, Classical.choice, Quot.sound]
'Verif.Seq.ListProps.self_merge' depends on axioms: [propext, Classical.choice, Quot.sound]
'Verif.Rb.Range.insert_other_range' depends on axioms: [propext, Classical.choice, Quot.sound]
'Verif.Rb.Range.insert_own_range' depends on axioms: [propext, Classical.choice, Quot.sound]
'Verif.Rb.Range.construct_from_range' depends on axioms: [propext, Classical.choice, Quot.sound]
'Verif.Algo.fill_own_value' depends on axioms: [propext, Classical.choice, Quot.sound]
'Verif.Algo.fill_n_own_value' depends on axioms: [propext, Classical.choice, Quot.sound]
'Verif.Algo.replace_if_own_value' depends on axioms: [propext, Classical.choice, Quot.sound]
'Verif.Algo.replace_copy_own_values' depends on axioms: [propext, Classical.choice, Quot.sound]
'Verif.Algo.remove_copy_own_value' depends on axioms: [propext, Classical.choice, Quot.sound]
'Verif.Algo.replace_other_value_partial' depends on axioms: [propext, Classical.choice, Quot.sound]
'Verif.Algo.replace_own_old_value' depends on axioms: [propext, Classical.choice, Quot.sound]
'Verif.Algo.remove_other_value_partial' depends on axioms: [propext, Classical.choice, Quot.sound]
'Verif.Algo.remove_own_value' depends on axioms: [propext, Classical.choice, Quot.sound]
'Verif.Gen.list_algorithms' depends on axioms: [propext, Classical.choice, Quot.sound]
'Verif.Gen.forward_list_algorithms' depends on axioms: [propext, Classical.choice, Quot.sound]
'Verif.Gen.backward_list_algorithms' depends on axioms: [propext, Classical.choice, Quot.sound]
'Verif.Gen.lazy_queue_algorithms' depends on axioms: [propext, Classical.choice, Quot.sound]
'Verif.Gen.vector_algorithms' depends on axioms: [propext, Classical.choice, Quot.sound]
'Verif.Gen.fixed_vector_algorithms' depends on axioms: [propext, Classical.choice, Quot.sound]
'Verif.Gen.vector_map_algorithms' depends on axioms: [propext, Classical.choice, Quot.sound]
'Verif.Gen.map_set_ranges' depends on axioms: [propext, Classical.choice, Quot.sound]
'Verif.Gen.sorted_vector_map_ranges' depends on axioms: [propext, Classical.choice, Quot.sound]
'Verif.Gen.array_algorithms' depends on axioms: [propext, Classical.choice, Quot.sound]
'Verif.Gen.list_presents' depends on axioms: [propext, Classical.choice, Quot.sound]
'Verif.Gen.fwd_presents' depends on axioms: [propext, Classical.choice, Quot.sound]
'Verif.Gen.bwd_presents' depends on axioms: [propext, Classical.choice, Quot.sound]
'Verif.Gen.lazy_presents' depends on axioms: [propext, Classical.choice, Quot.sound]
'Verif.Gen.vec_presents' depends on axioms: [propext, Classical.choice, Quot.sound]
'Verif.Gen.vec_random' depends on axioms: [propext, Classical.choice, Quot.sound]
'Verif.Gen.fv_presents' depends on axioms: [propext, Classical.choice, Quot.sound]
'Verif.Gen.fv_random' depends on axioms: [propext, Classical.choice, Quot.sound]
'Verif.Gen.tree_presents' depends on axioms: [propext, Classical.choice, Quot.sound]
'Verif.Gen.sorted_presents' depends on axioms: [propext, Classical.choice, Quot.sound]
'Verif.Gen.vmap_presents' depends on axioms: [propext, Classical.choice, Quot.sound]
'Verif.Gen.array_presents' depends on axioms: [propext, Classical.choice, Quot.sound]
'Verif.Gen.find_if_calls' depends on axioms: [propext, Classical.choice, Quot.sound]
'Verif.Gen.find_if_not_calls' depends on axioms: [propext, Classical.choice, Quot.sound]
'Verif.Gen.quantifiers_calls' depends on axioms: [propext, Classical.choice, Quot.sound]
'Verif.Gen.count_if_calls' depends on axioms: [propext, Classical.choice, Quot.sound]
'Verif.Gen.equal_calls' depends on axioms: [propext, Classical.choice, Quot.sound]
'Verif.Gen.modifying_calls' depends on axioms: [propext, Classical.choice, Quot.sound]
'Verif.Gen.copying_calls' depends on axioms: [propext, Classical.choice, Quot.sound]
'Verif.Gen.find_if_any' depends on axioms: [propext, Classical.choice, Quot.sound]
'Verif.Gen.find_if_not_any' depends on axioms: [propext, Classical.choice, Quot.sound]
'Verif.Gen.quantifiers_any' depends on axioms: [propext, Classical.choice, Quot.sound]
'Verif.Gen.count_if_any' depends on axioms: [propext, Classical.choice, Quot.sound]
'Verif.Gen.equal4_any' depends on axioms: [propext, Classical.choice, Quot.sound]
'Verif.Gen.equal3_any' depends on axioms: [propext, Classical.choice, Quot.sound]
'Verif.Gen.mismatch4_any' depends on axioms: [propext, Classical.choice, Quot.sound]
'Verif.Gen.adjacent_find_any' depends on axioms: [propext, Classical.choice, Quot.sound]
'Verif.Gen.replace_if_any' depends on axioms: [propext, Classical.choice, Quot.sound]
'Verif.Gen.remove_if_any' depends on axioms: [propext, Classical.choice, Quot.sound]
'Verif.Gen.transform_any' depends on axioms: [propext, Classical.choice, Quot.sound]
'Verif.Gen.copy_if_any' depends on axioms: [propext, Classical.choice, Quot.sound]
'Verif.Gen.remove_copy_if_any' depends on axioms: [propext, Classical.choice, Quot.sound]
'Verif.Gen.replace_copy_if_any' depends on axioms: [propext, Classical.choice, Quot.sound]
'Verif.Gen.generate_any' depends on axioms: [propext, Classical.choice, Quot.sound]
'Verif.Gen.generate_n_any' depends on axioms: [propext, Classical.choice, Quot.sound]
'Verif.Gen.transform2_any' depends on axioms: [propext, Classical.choice, Quot.sound]
'Verif.Gen.merge_comparisons' depends on axioms: [propext, Classical.choice, Quot.sound]
'Verif.Gen.lower_bound_any' depends on axioms: [propext, Classical.choice, Quot.sound]
'Verif.Gen.upper_bound_any' depends on axioms: [propext, Classical.choice, Quot.sound]
'Verif.Gen.binary_search_any' depends on axioms: [propext, Classical.choice, Quot.sound]
'Verif.Gen.equal_range_any' depends on axioms: [propext, Classical.choice, Quot.sound]
'Verif.Gen.Presents.works' depends on axioms: [propext, Classical.choice, Quot.sound]
'Verif.Gen.Presents.works_part' depends on axioms: [propext, Classical.choice, Quot.sound]
'Verif.Gen.list_presents2' depends on axioms: [propext, Classical.choice, Quot.sound]
'Verif.Gen.fwd_presents2' depends on axioms: [propext, Classical.choice, Quot.sound]
'Verif.Gen.bwd_presents2' depends on axioms: [propext, Classical.choice, Quot.sound]
'Verif.Gen.lazy_presents2' depends on axioms: [propext, Classical.choice, Quot.sound]
'Verif.Gen.vec_presents2' depends on axioms: [propext, Classical.choice, Quot.sound]
'Verif.Gen.fv_presents2' depends on axioms: [propext, Classical.choice, Quot.sound]
'Verif.Gen.Presents.both' depends on axioms: [propext]
'Verif.Gen.BiPresents.both' depends on axioms: [propext]
'Verif.Gen.Presents2.transform' depends on axioms: [propext, Classical.choice, Quot.sound]
'Verif.Gen.Presents2.copy' depends on axioms: [propext, Classical.choice, Quot.sound]
'Verif.Gen.Presents2.copy_n' depends on axioms: [propext, Classical.choice, Quot.sound]
'Verif.Gen.Presents2.copy_if' depends on axioms: [propext, Classical.choice, Quot.sound]
'Verif.Gen.Presents2.remove_copy_if' depends on axioms: [propext, Classical.choice, Quot.sound]
'Verif.Gen.Presents2.replace_copy_if' depends on axioms: [propext, Classical.choice, Quot.sound]
'Verif.Gen.Presents2.swap_ranges' depends on axioms: [propext, Classical.choice, Quot.sound]
'Verif.Gen.BiPresents.reverse' depends on axioms: [propext, Classical.choice, Quot.sound]
'Verif.Gen.BiPresents2.reverse_copy' depends on axioms: [propext, Classical.choice, Quot.sound]
'Verif.Gen.BiPresents2.copy_backward' depends on axioms: [propext, Classical.choice, Quot.sound]
'Verif.Gen.At.copy' depends on axioms: [propext, Classical.choice, Quot.sound]
'Verif.Gen.At.copy_if' depends on axioms: [propext, Classical.choice, Quot.sound]
'Verif.Gen.At.remove_copy_if' depends on axioms: [propext, Classical.choice, Quot.sound]
'Verif.Gen.At.transform' depends on axioms: [propext, Classical.choice, Quot.sound]
'Verif.Gen.At.merge' depends on axioms: [propext, Classical.choice, Quot.sound]
'Verif.Gen.copy_left' depends on axioms: [propext, Classical.choice, Quot.sound]
'Verif.Gen.copy_if_left' depends on axioms: [propext, Classical.choice, Quot.sound]
'Verif.Gen.merge_any' depends on axioms: [propext, Classical.choice, Quot.sound]
'Verif.SVMap.AnyProps.any_call_returns_partial' depends on axioms: [propext, Classical.choice, Quot.sound]
'Verif.SVMap.AnyProps.any_lists_partial' depends on axioms: [propext, Classical.choice, Quot.sound]
'Verif.SVMap.AnyProps.any_insert_partial' depends on axioms: [propext, Classical.choice, Quot.sound]
'Verif.SVMap.AnyProps.any_index_partial' depends on axioms: [propext, Classical.choice, Quot.sound]
'Verif.SVMap.AnyProps.any_find_sound_partial' depends on axioms: [propext, Classical.choice, Quot.sound]
'Verif.SVMap.AnyProps.any_no_leak_partial' depends on axioms: [propext, Classical.choice, Quot.sound]
'Verif.SVMap.AnyProps.weak_sorted_partial' depends on axioms: [propext, Classical.choice, Quot.sound]
'Verif.SVMap.AnyProps.weak_lower_bound_partial' depends on axioms: [propext, Classical.choice, Quot.sound]
'Verif.SVMap.AnyProps.weak_find_partial' depends on axioms: [propext, Classical.choice, Quot.sound]
'Verif.SVMap.AnyProps.weak_insert_partial' depends on axioms: [propext, Classical.choice, Quot.sound]
'Verif.SVMap.AnyProps.weak_loses_keys' depends on axioms: [propext, Classical.choice, Quot.sound]
'Verif.SVMap.AnyProps.find_examines_few' depends on axioms: [propext, Classical.choice, Quot.sound]
'Verif.Rb.AnyOrder.any_calls_return_partial' depends on axioms: [propext, Classical.choice, Quot.sound]
'Verif.Rb.AnyOrder.any_iteration_partial' depends on axioms: [propext, Classical.choice, Quot.sound]
'Verif.Rb.AnyOrder.any_insert_partial' depends on axioms: [propext, Classical.choice, Quot.sound]
'Verif.Rb.AnyOrder.any_find_partial' depends on axioms: [propext, Classical.choice, Quot.sound]
'Verif.Rb.AnyOrder.any_erase_partial' depends on axioms: [propext, Classical.choice, Quot.sound]
'Verif.Rb.AnyOrder.any_no_leak_partial' depends on axioms: [propext, Classical.choice, Quot.sound]
'Verif.Seq.ListProps.insert_range_partial' depends on axioms: [propext, Classical.choice, Quot.sound]
'Verif.Seq.ListProps.insert_range_same' depends on axioms: [propext, Classical.choice, Quot.sound]
'Verif.Seq.ListProps.insert_own_range_endless' depends on axioms: [propext, Classical.choice, Quot.sound]
'Verif.Seq.ListProps.construct_range' depends on axioms: [propext, Classical.choice, Quot.sound]
'Verif.Seq.ListProps.assign_part_partial' depends on axioms: [propext, Classical.choice, Quot.sound]
'Verif.Seq.ListProps.assign_own_range_ub' depends on axioms: [propext, Classical.choice, Quot.sound]
'Verif.Seq.FwdProps.insert_range_partial' depends on axioms: [propext, Classical.choice, Quot.sound]
'Verif.Seq.FwdProps.insert_range_same' depends on axioms: [propext, Classical.choice, Quot.sound]
'Verif.Seq.FwdProps.insert_own_range_endless' depends on axioms: [propext, Classical.choice, Quot.sound]
'Verif.Seq.FwdProps.construct_range' depends on axioms: [propext, Classical.choice, Quot.sound]
'Verif.Seq.FwdProps.assign_part_partial' depends on axioms: [propext, Classical.choice, Quot.sound]
'Verif.Seq.FwdProps.assign_own_range_ub' depends on axioms: [propext, Classical.choice, Quot.sound]
'Verif.Seq.BwdProps.insert_range_partial' depends on axioms: [propext, Classical.choice, Quot.sound]
'Verif.Seq.BwdProps.insert_range_same' depends on axioms: [propext, Classical.choice, Quot.sound]
'Verif.Seq.BwdProps.insert_own_range_endless' depends on axioms: [propext, Classical.choice, Quot.sound]
'Verif.Seq.BwdProps.insert_part_at_end_loses_end' depends on axioms: [propext, Classical.choice, Quot.sound]
'Verif.Seq.BwdProps.construct_range_same' depends on axioms: [propext, Classical.choice, Quot.sound]
'Verif.Seq.BwdProps.construct_part_loses_end' depends on axioms: [propext, Classical.choice, Quot.sound]
'Verif.Seq.BwdProps.assign_range_same' depends on axioms: [propext, Classical.choice, Quot.sound]
'Verif.Seq.BwdProps.assign_part_loses_end' depends on axioms: [propext, Classical.choice, Quot.sound]
'Verif.Seq.BwdProps.assign_own_range_ub' depends on axioms: [propext, Classical.choice, Quot.sound]
'Verif.Seq.LazyProps.insert_range_partial' depends on axioms: [propext, Classical.choice, Quot.sound]
'Verif.Seq.LazyProps.insert_range_same' depends on axioms: [propext, Classical.choice, Quot.sound]
'Verif.Seq.LazyProps.insert_own_range_endless' depends on axioms: [propext, Classical.choice, Quot.sound]
'Verif.Util.less_order' does not depend on any axioms
'Verif.Util.greater_order' depends on axioms: [propext]
'Verif.Util.exactly_one' does not depend on any axioms
'Verif.Util.equal_or_not' depends on axioms: [propext]
'Verif.Util.tree_descends' depends on axioms: [propext, Classical.choice, Quot.sound]
'Verif.Util.lower_bound_descending' depends on axioms: [propext, Classical.choice, Quot.sound]
'Verif.Util.upper_bound_descending' depends on axioms: [propext, Classical.choice, Quot.sound]
'Verif.Util.binary_search_descending' depends on axioms: [propext, Classical.choice, Quot.sound]
'Verif.Util.merge_descending' depends on axioms: [propext, Classical.choice, Quot.sound]
'Verif.Util.sorted_map_descends' depends on axioms: [propext, Classical.choice, Quot.sound]
'Verif.Util.greater_needs_gt' depends on axioms: [propext, Quot.sound]
'Verif.Util.not_equal_to_needs_ne' does not depend on any axioms
'Verif.Util.equal_and_not' depends on axioms: [propext, Quot.sound]
'Verif.Exc.XList.call_points' depends on axioms: [propext, Classical.choice, Quot.sound]
'Verif.Exc.XList.call_outcome' depends on axioms: [propext, Classical.choice, Quot.sound]
'Verif.Exc.XList.XReach.reach' depends on axioms: [propext, Classical.choice, Quot.sound]
'Verif.Exc.XList.XReach.goes_on' depends on axioms: [propext, Classical.choice, Quot.sound]
'Verif.Exc.XList.interrupted_unique' depends on axioms: [propext, Classical.choice, Quot.sound]
'Verif.Exc.XList.push_back_strong' depends on axioms: [propext, Classical.choice, Quot.sound]
'Verif.Exc.XList.push_front_strong' depends on axioms: [propext, Classical.choice, Quot.sound]
'Verif.Exc.XList.insert_strong' depends on axioms: [propext, Classical.choice, Quot.sound]
'Verif.Exc.XList.insert_range_interrupted' depends on axioms: [propext, Classical.choice, Quot.sound]
'Verif.Exc.XList.remove_if_interrupted' depends on axioms: [propext, Classical.choice, Quot.sound]
'Verif.Exc.XList.merge_interrupted' depends on axioms: [propext, Classical.choice, Quot.sound]
'Verif.Exc.XList.XReach.lreach' depends on axioms: [propext, Classical.choice, Quot.sound]
'Verif.Exc.XList.LReach.goes_on' depends on axioms: [propext, Classical.choice, Quot.sound]
'Verif.Exc.XList.LReach.observes' depends on axioms: [propext, Classical.choice, Quot.sound]
'Verif.Exc.XList.LReach.storage' depends on axioms: [propext, Classical.choice, Quot.sound]
'Verif.Exc.XList.ctor_first_throw_clean_partial' depends on axioms: [propext, Classical.choice, Quot.sound]
'Verif.Exc.XList.ctor_vals_points' depends on axioms: [propext, Classical.choice, Quot.sound]
'Verif.Exc.XList.ctor_n_points' depends on axioms: [propext, Classical.choice, Quot.sound]
'Verif.Exc.XList.copy_ctor_points' depends on axioms: [propext, Classical.choice, Quot.sound]
'Verif.Exc.XList.ctor_throw_leaks' depends on axioms: [propext, Classical.choice, Quot.sound]
'Verif.Exc.XList.assign_throw_loses' depends on axioms: [propext, Classical.choice, Quot.sound]
'Verif.Exc.XList.LReach.all_destroyed' depends on axioms: [propext, Classical.choice, Quot.sound]
'Verif.Exc.XList.LReach.lost_stay' depends on axioms: [propext, Classical.choice, Quot.sound]
'Verif.Exc.XVec.call_points' depends on axioms: [propext, Classical.choice, Quot.sound]
'Verif.Exc.XVec.call_outcome' depends on axioms: [propext, Classical.choice, Quot.sound]
'Verif.Exc.XVec.insert_counted' depends on axioms: [propext, Classical.choice, Quot.sound]
'Verif.Exc.XVec.erase_counted' depends on axioms: [propext, Classical.choice, Quot.sound]
'Verif.Exc.XVec.returns_same' depends on axioms: [propext, Classical.choice, Quot.sound]
'Verif.Exc.XVec.XReach.fine' depends on axioms: [propext, Classical.choice, Quot.sound]
'Verif.Exc.XVec.XReach.goes_on' depends on axioms: [propext, Classical.choice, Quot.sound]
'Verif.Exc.XVec.throw_others_kept' depends on axioms: [propext, Classical.choice, Quot.sound]
'Verif.Exc.XVec.reach_xreach' depends on axioms: [propext, Classical.choice, Quot.sound]
'Verif.Exc.XVec.growth_strong_partial' depends on axioms: [propext, Classical.choice, Quot.sound]
'Verif.Exc.XVec.failed_allocation_no_trace' depends on axioms: [propext, Classical.choice, Quot.sound]
'Verif.Exc.XVec.throwing_copy_leaks' depends on axioms: [propext, Classical.choice, Quot.sound]
'Verif.Exc.XVec.unowned_stays' depends on axioms: [propext, Classical.choice, Quot.sound]
'Verif.Exc.XVec.in_place_throw_ruins' depends on axioms: [propext, Classical.choice, Quot.sound]
'Verif.Exc.XVec.push_back_throw_ruins' depends on axioms: [propext, Classical.choice, Quot.sound]
'Verif.Exc.XVec.erase_throw_ruins' depends on axioms: [propext, Classical.choice, Quot.sound]
'Verif.Exc.XVec.resize_throw_ruins' depends on axioms: [propext, Classical.choice, Quot.sound]
'Verif.Exc.XVec.reserve_can_throw' depends on axioms: [propext, Classical.choice, Quot.sound]
'Verif.Exc.XRb.call_points' depends on axioms: [propext, Classical.choice, Quot.sound]
'Verif.Exc.XRb.call_outcome' depends on axioms: [propext, Classical.choice, Quot.sound]
'Verif.Exc.XRb.XReach.goes_on' depends on axioms: [propext, Classical.choice, Quot.sound]
'Verif.Exc.XRb.iteration' depends on axioms: [propext, Classical.choice, Quot.sound]
'Verif.Exc.XRb.lookups' depends on axioms: [propext, Classical.choice, Quot.sound]
'Verif.Exc.XRb.backward_partial' depends on axioms: [propext, Classical.choice, Quot.sound]
'Verif.Exc.XRb.memory' depends on axioms: [propext, Classical.choice, Quot.sound]
'Verif.Exc.XRb.no_leak' depends on axioms: [propext, Classical.choice, Quot.sound]
'Verif.Exc.XRb.only_copies_lose' depends on axioms: [propext]
'Verif.Exc.XRb.insert_strong' depends on axioms: [propext, Classical.choice, Quot.sound]
'Verif.Exc.XRb.erase_interrupted' depends on axioms: [propext, Classical.choice, Quot.sound]
'Verif.Exc.XRb.XReach.returns' depends on axioms: [propext, Classical.choice, Quot.sound]
'Verif.Exc.XRb.backward_after_throw_fails' depends on axioms: [propext, Classical.choice, Quot.sound]
'Verif.Exc.XRb.erase_after_throw_loses' depends on axioms: [propext, Classical.choice, Quot.sound]
'Verif.Exc.XRb.copy_leaks' depends on axioms: [propext, Classical.choice, Quot.sound]
'Verif.Exc.XRb.assign_leaks' depends on axioms: [propext, Classical.choice, Quot.sound]
'Verif.Exc.XSM.call_points' depends on axioms: [propext, Classical.choice, Quot.sound]
'Verif.Exc.XSM.XRuns.goes_on' depends on axioms: [propext, Classical.choice, Quot.sound]
'Verif.Exc.XSM.lists' depends on axioms: [propext, Classical.choice, Quot.sound]
'Verif.Exc.XSM.observes' depends on axioms: [propext, Classical.choice, Quot.sound]
'Verif.Exc.XSM.unchanged' depends on axioms: [propext, Classical.choice, Quot.sound]
'Verif.Exc.XSM.others_unchanged' depends on axioms: [propext, Classical.choice, Quot.sound]
'Verif.Exc.XSM.lost' depends on axioms: [propext, Classical.choice, Quot.sound]
'Verif.Exc.XSM.memory' depends on axioms: [propext, Classical.choice, Quot.sound]
'Verif.Exc.XSM.no_leak' depends on axioms: [propext, Classical.choice, Quot.sound]
'Verif.Exc.XSM.separate' depends on axioms: [propext, Classical.choice, Quot.sound]
'Verif.Exc.XSM.lookups' depends on axioms: [propext, Classical.choice, Quot.sound]
'Verif.Exc.XSM.ruined_map' depends on axioms: [propext, Classical.choice, Quot.sound]
'Verif.Exc.XSM.insert_ruins' depends on axioms: [propext, Classical.choice, Quot.sound]
'Verif.Exc.XSM.insert_leaks' depends on axioms: [propext, Classical.choice, Quot.sound]
'Verif.Exc.XSM.copy_leaks' depends on axioms: [propext, Classical.choice, Quot.sound]
'Verif.Exc.XSM.insert_never_safe' depends on axioms: [propext, Classical.choice, Quot.sound]
'Verif.Exc.XFwd.call_points' depends on axioms: [propext, Classical.choice, Quot.sound]
'Verif.Exc.XFwd.call_outcome' depends on axioms: [propext, Classical.choice, Quot.sound]
'Verif.Exc.XFwd.XReach.reach' depends on axioms: [propext, Classical.choice, Quot.sound]
'Verif.Exc.XFwd.XReach.goes_on' depends on axioms: [propext, Classical.choice, Quot.sound]
'Verif.Exc.XFwd.interrupted_unique' depends on axioms: [propext, Classical.choice, Quot.sound]
'Verif.Exc.XFwd.push_front_strong' depends on axioms: [propext, Classical.choice, Quot.sound]
'Verif.Exc.XFwd.insert_strong' depends on axioms: [propext, Classical.choice, Quot.sound]
'Verif.Exc.XFwd.insert_range_interrupted' depends on axioms: [propext, Classical.choice, Quot.sound]
'Verif.Exc.XFwd.assign_interrupted' depends on axioms: [propext, Classical.choice, Quot.sound]
'Verif.Exc.XFwd.XReach.lreach' depends on axioms: [propext, Classical.choice, Quot.sound]
'Verif.Exc.XFwd.LReach.goes_on' depends on axioms: [propext, Classical.choice, Quot.sound]
'Verif.Exc.XFwd.LReach.observes' depends on axioms: [propext, Classical.choice, Quot.sound]
'Verif.Exc.XFwd.LReach.storage' depends on axioms: [propext, Classical.choice, Quot.sound]
'Verif.Exc.XFwd.ctor_first_throw_clean_partial' depends on axioms: [propext, Classical.choice, Quot.sound]
'Verif.Exc.XFwd.ctor_vals_points' depends on axioms: [propext, Classical.choice, Quot.sound]
'Verif.Exc.XFwd.ctor_n_points' depends on axioms: [propext, Classical.choice, Quot.sound]
'Verif.Exc.XFwd.copy_ctor_points' depends on axioms: [propext, Classical.choice, Quot.sound]
'Verif.Exc.XFwd.ctor_throw_leaks' depends on axioms: [propext, Classical.choice, Quot.sound]
'Verif.Exc.XFwd.assign_throw_loses' depends on axioms: [propext, Classical.choice, Quot.sound]
'Verif.Exc.XFwd.LReach.all_destroyed' depends on axioms: [propext, Classical.choice, Quot.sound]
'Verif.Exc.XFwd.LReach.lost_stay' depends on axioms: [propext, Classical.choice, Quot.sound]
'Verif.Exc.XBwd.ctor_first_throw_clean_partial' depends on axioms: [propext, Classical.choice, Quot.sound]
'Verif.Exc.XBwd.ctor_vals_points' depends on axioms: [propext, Classical.choice, Quot.sound]
'Verif.Exc.XBwd.ctor_n_points' depends on axioms: [propext, Classical.choice, Quot.sound]
'Verif.Exc.XBwd.copy_ctor_points' depends on axioms: [propext, Classical.choice, Quot.sound]
'Verif.Exc.XBwd.ctor_throw_leaks' depends on axioms: [propext, Classical.choice, Quot.sound]
'Verif.Exc.XBwd.assign_throw_loses' depends on axioms: [propext, Classical.choice, Quot.sound]
'Verif.Exc.XBwd.LReach.goes_on' depends on axioms: [propext, Classical.choice, Quot.sound]
'Verif.Exc.XBwd.LReach.storage' depends on axioms: [propext, Classical.choice, Quot.sound]
'Verif.Exc.XBwd.LReach.all_destroyed' depends on axioms: [propext, Classical.choice, Quot.sound]
'Verif.Exc.XBwd.LReach.lost_stay' depends on axioms: [propext, Classical.choice, Quot.sound]
'Verif.Exc.XBwd.call_points' depends on axioms: [propext, Classical.choice, Quot.sound]
'Verif.Exc.XBwd.call_outcome' depends on axioms: [propext, Classical.choice, Quot.sound]
'Verif.Exc.XBwd.XReach.reach' depends on axioms: [propext, Classical.choice, Quot.sound]
'Verif.Exc.XBwd.XReach.goes_on' depends on axioms: [propext, Classical.choice, Quot.sound]
'Verif.Exc.XBwd.interrupted_unique' depends on axioms: [propext, Classical.choice, Quot.sound]
'Verif.Exc.XBwd.push_front_strong' depends on axioms: [propext, Classical.choice, Quot.sound]
'Verif.Exc.XBwd.push_back_strong' depends on axioms: [propext, Classical.choice, Quot.sound]
'Verif.Exc.XBwd.insert_strong' depends on axioms: [propext, Classical.choice, Quot.sound]
'Verif.Exc.XBwd.insert_range_interrupted' depends on axioms: [propext, Classical.choice, Quot.sound]
'Verif.Exc.XBwd.assign_interrupted' depends on axioms: [propext, Classical.choice, Quot.sound]
'Verif.Exc.XBwd.insert_n_throw_loses_end' depends on axioms: [propext, Classical.choice, Quot.sound]
'Verif.Exc.XBwd.XReach.lreach' depends on axioms: [propext, Classical.choice, Quot.sound]
'Verif.Exc.XBwd.LReach.shows' depends on axioms: [propext, Classical.choice, Quot.sound]
'Verif.Exc.XBwd.LReach.observes' depends on axioms: [propext, Classical.choice, Quot.sound]
'Verif.Exc.XLq.call_points' depends on axioms: [propext, Classical.choice, Quot.sound]
'Verif.Exc.XLq.call_outcome' depends on axioms: [propext, Classical.choice, Quot.sound]
'Verif.Exc.XLq.queue_observes' depends on axioms: [propext, Classical.choice, Quot.sound]
'Verif.Exc.XLq.memory' depends on axioms: [propext, Classical.choice, Quot.sound]
'Verif.Exc.XLq.lost_forever' depends on axioms: [propext, Classical.choice, Quot.sound]
'Verif.Exc.XLq.reach_xreach' depends on axioms: [propext, Classical.choice, Quot.sound]
'Verif.Exc.XLq.single_throw_partial' depends on axioms: [propext, Classical.choice, Quot.sound]
'Verif.Exc.XLq.push_back_throw_leaks' depends on axioms: [propext, Classical.choice, Quot.sound]
'Verif.Exc.XLq.copy_ctor_interrupted' depends on axioms: [propext, Classical.choice, Quot.sound]
'Verif.Exc.XLq.ctor_n_interrupted' depends on axioms: [propext, Classical.choice, Quot.sound]
'Verif.Exc.XLq.insert_range_interrupted_partial' depends on axioms: [propext, Classical.choice, Quot.sound]
'Verif.Exc.XLq.insert_n_interrupted_partial' depends on axioms: [propext, Classical.choice, Quot.sound]
'Verif.Exc.XLq.assign_interrupted_partial' depends on axioms: [propext, Classical.choice, Quot.sound]
'Verif.Exc.XLq.assign_throw_loses' depends on axioms: [propext, Classical.choice, Quot.sound]
'Verif.Exc.XLq.stale_queue' depends on axioms: [propext, Classical.choice, Quot.sound]
'Verif.Exc.XLq.stale_push_back' depends on axioms: [propext, Classical.choice, Quot.sound]
'Verif.Exc.XLq.insert_end_throw_loses_end' depends on axioms: [propext, Classical.choice, Quot.sound]
'Verif.Exc.XLq.stale_pop_push_loses' depends on axioms: [propext, Classical.choice, Quot.sound]
'Verif.Exc.XLq.stale_clear' depends on axioms: [propext, Classical.choice, Quot.sound]
'Verif.Exc.XLq.stale_destroy' depends on axioms: [propext, Classical.choice, Quot.sound]
'Verif.Exc.XFv.call_points' depends on axioms: [propext, Classical.choice, Quot.sound]
'Verif.Exc.XFv.outcome' depends on axioms: [propext, Classical.choice, Quot.sound]
'Verif.Exc.XFv.XReach.world' depends on axioms: [propext, Classical.choice, Quot.sound]
'Verif.Exc.XFv.reach_xreach' depends on axioms: [propext, Classical.choice, Quot.sound]
'Verif.Exc.XFv.history_partial' depends on axioms: [propext, Classical.choice, Quot.sound]
'Verif.Exc.XFv.throw_others_kept_partial' depends on axioms: [propext, Classical.choice, Quot.sound]
'Verif.Exc.XFv.nothing_copied_no_throw' depends on axioms: [propext, Classical.choice, Quot.sound]
'Verif.Exc.XFv.store_throw_partial' depends on axioms: [propext, Classical.choice, Quot.sound]
'Verif.Exc.XFv.resize_throw' depends on axioms: [propext, Classical.choice, Quot.sound]
'Verif.Exc.XFv.throw_ruins' depends on axioms: [propext, Classical.choice, Quot.sound]
'Verif.Exc.XFv.push_back_throw_ruins' depends on axioms: [propext, Classical.choice, Quot.sound]
'Verif.Exc.XFv.erase_throw_ruins' depends on axioms: [propext, Classical.choice, Quot.sound]
'Verif.Exc.XFv.assign_throw_ruins' depends on axioms: [propext, Classical.choice, Quot.sound]
'Verif.Exc.XFv.insert_throw_ruins' depends on axioms: [propext, Classical.choice, Quot.sound]
'Verif.Exc.XFv.swap_equal_throw_partial' depends on axioms: [propext, Classical.choice, Quot.sound]
'Verif.Exc.XFv.swap_throw_loses_element' depends on axioms: [propext, Classical.choice, Quot.sound]
'Verif.Exc.XFv.swap_shorter_throw_partial' depends on axioms: [propext, Classical.choice, Quot.sound]
'Verif.Exc.XFv.swap_shorter_throw_ruins' depends on axioms: [propext, Classical.choice, Quot.sound]
'Verif.Exc.XFv.nothing_else_partial' depends on axioms: [propext, Classical.choice, Quot.sound]
'Verif.Exc.XFv.ctor_throw_partial' depends on axioms: [propext, Classical.choice, Quot.sound]
'Verif.Exc.XFv.ctor_throw_leaks' depends on axioms: [propext, Classical.choice, Quot.sound]
'Verif.Exc.XFv.copy_ctor_throw_leaks' depends on axioms: [propext, Classical.choice, Quot.sound]
'Verif.Exc.XVM.call_points' depends on axioms: [propext, Classical.choice, Quot.sound]
'Verif.Exc.XVM.call_outcome' depends on axioms: [propext, Classical.choice, Quot.sound]
'Verif.Exc.XVM.VXSteps.vec' depends on axioms: [propext, Classical.choice, Quot.sound]
'Verif.Exc.XVM.VXReach.goes_on' depends on axioms: [propext, Classical.choice, Quot.sound]
'Verif.Exc.XVM.throw_others_kept' depends on axioms: [propext, Classical.choice, Quot.sound]
'Verif.Exc.XVM.reach_xreach' depends on axioms: [propext, Classical.choice, Quot.sound]
'Verif.Exc.XVM.find_throw' depends on axioms: [propext, Classical.choice, Quot.sound]
'Verif.Exc.XVM.count_absent_throw' depends on axioms: [propext, Classical.choice, Quot.sound]
'Verif.Exc.XVM.count_present_throw' depends on axioms: [propext, Classical.choice, Quot.sound]
'Verif.Exc.XVM.present_key_strong' depends on axioms: [propext, Classical.choice, Quot.sound]
'Verif.Exc.XVM.full_map_strong_partial' depends on axioms: [propext, Classical.choice, Quot.sound]
'Verif.Exc.XVM.full_map_leaks' depends on axioms: [propext, Classical.choice, Quot.sound]
'Verif.Exc.XVM.insert_throw_ruins' depends on axioms: [propext, Classical.choice, Quot.sound]
'Verif.Exc.XVM.insert_never_safe' depends on axioms: [propext, Classical.choice, Quot.sound]
'Verif.Exc.XVM.put_throw' depends on axioms: [propext, Classical.choice, Quot.sound]
'Verif.Exc.XVM.put_throw_leaves_default' depends on axioms: [propext, Classical.choice, Quot.sound]
'Verif.Exc.XVM.erase_throw_ruins' depends on axioms: [propext, Classical.choice, Quot.sound]
'Verif.Rb.Container.equal_compares' depends on axioms: [propext, Classical.choice, Quot.sound]
'Verif.Rb.Container.not_equal_compares' depends on axioms: [propext, Classical.choice, Quot.sound]
'Verif.Rb.Container.equal_compares_values' depends on axioms: [propext, Classical.choice, Quot.sound]
'Verif.Vec.MachProps.machine_reach' depends on axioms: [propext, Classical.choice, Quot.sound]
'Verif.Vec.MachProps.request_fits_partial' depends on axioms: [propext, Classical.choice, Quot.sound]
'Verif.Vec.MachProps.request_up_to_max_size_partial' depends on axioms: [propext, Classical.choice, Quot.sound]
'Verif.Vec.MachProps.storage_enough' depends on axioms: [propext, Classical.choice, Quot.sound]
'Verif.Vec.MachProps.machine_history_partial' depends on axioms: [propext, Classical.choice, Quot.sound]
'Verif.Vec.MachProps.construct_too_many_ub' depends on axioms: [propext, Classical.choice, Quot.sound]
'Verif.Vec.MachProps.construct_n_too_many_ub' depends on axioms: [propext, Classical.choice, Quot.sound]
'Verif.Vec.MachProps.insert_huge_ignored' depends on axioms: [propext, Classical.choice, Quot.sound]
'Verif.Vec.MachProps.resize_huge_ignored' depends on axioms: [propext, Classical.choice, Quot.sound]
'Verif.Vec.MachProps.resize_x_huge_ignored' depends on axioms: [propext, Classical.choice, Quot.sound]
'Verif.Vec.MachProps.insert_too_many_ub' depends on axioms: [propext, Classical.choice, Quot.sound]
'Verif.Vec.MachProps.resize_too_many_ub' depends on axioms: [propext, Classical.choice, Quot.sound]
'Verif.Vec.MachProps.reserve_wraps_ignored' depends on axioms: [propext, Classical.choice, Quot.sound]
'Verif.Vec.MachProps.reserve_too_many' depends on axioms: [propext, Classical.choice, Quot.sound]
'Verif.Vec.MachProps.assign_too_many_ub' depends on axioms: [propext, Classical.choice, Quot.sound]
'Verif.Exc.XVec.push_back_cost_partial' depends on axioms: [propext, Classical.choice, Quot.sound]
'Verif.Exc.XVec.push_back_full_cost' depends on axioms: [propext, Classical.choice, Quot.sound]
'Verif.Exc.XVec.push_back_total' depends on axioms: [propext, Classical.choice, Quot.sound]
'Verif.Exc.XVec.push_back_quadratic' depends on axioms: [propext, Classical.choice, Quot.sound]
'Verif.Exc.XVec.reserve_first_partial' depends on axioms: [propext, Classical.choice, Quot.sound]
'Verif.Exc.XVec.insert_cost' depends on axioms: [propext, Classical.choice, Quot.sound]
'Verif.Exc.XVec.erase_cost' depends on axioms: [propext, Classical.choice, Quot.sound]
'Verif.SVMap.AnyProps.reallocations_logarithmic' depends on axioms: [propext, Classical.choice, Quot.sound]
'Verif.Vec.FV.FMProps.machine_reach' depends on axioms: [propext, Classical.choice, Quot.sound]
'Verif.Vec.FV.FMProps.count_fits_partial' depends on axioms: [propext, Classical.choice, Quot.sound]
'Verif.Vec.FV.FMProps.insert_end_any' depends on axioms: [propext, Classical.choice, Quot.sound]
'Verif.Vec.FV.FMProps.resize_any' depends on axioms: [propext, Classical.choice, Quot.sound]
'Verif.Vec.FV.FMProps.assign_any' depends on axioms: [propext, Classical.choice, Quot.sound]
'Verif.Vec.FV.FMProps.construct_any' depends on axioms: [propext, Classical.choice, Quot.sound]
'Verif.Vec.FV.FMProps.insert_middle_partial' depends on axioms: [propext, Classical.choice, Quot.sound]
'Verif.Vec.FV.FMProps.machine_fixed_history_partial' depends on axioms: [propext, Classical.choice, Quot.sound]
'Verif.Vec.FV.FMProps.insert_wraps_ub' depends on axioms: [propext, Classical.choice, Quot.sound]
'Verif.Vec.FV.FMProps.insert_all_ones_ub' depends on axioms: [propext, Classical.choice, Quot.sound]
'Verif.Vec.FV.FMProps.insert_beyond_memory_ub' depends on axioms: [propext, Classical.choice, Quot.sound]
'Verif.Exc.XList.call_cost' depends on axioms: [propext, Classical.choice, Quot.sound]
'Verif.Exc.XList.relinking_free' depends on axioms: [propext, Classical.choice, Quot.sound]
'Verif.Exc.XList.insertion_cost' depends on axioms: [propext, Classical.choice, Quot.sound]
'Verif.Exc.XList.copy_cost' depends on axioms: [propext, Classical.choice, Quot.sound]
'Verif.Exc.XList.remove_cost' depends on axioms: [propext, Classical.choice, Quot.sound]
'Verif.Exc.XList.merge_cost_partial' depends on axioms: [propext, Classical.choice, Quot.sound]
'Verif.Exc.XList.merge_compares_more' depends on axioms: [propext, Classical.choice, Quot.sound]
'Verif.Exc.XFwd.call_cost' depends on axioms: [propext, Classical.choice, Quot.sound]
'Verif.Exc.XFwd.relinking_free' depends on axioms: [propext, Classical.choice, Quot.sound]
'Verif.Exc.XFwd.insertion_cost' depends on axioms: [propext, Classical.choice, Quot.sound]
'Verif.Exc.XFwd.copy_cost' depends on axioms: [propext, Classical.choice, Quot.sound]
'Verif.Exc.XBwd.call_cost' depends on axioms: [propext, Classical.choice, Quot.sound]
'Verif.Exc.XBwd.relinking_free' depends on axioms: [propext, Classical.choice, Quot.sound]
'Verif.Exc.XBwd.insertion_cost' depends on axioms: [propext, Classical.choice, Quot.sound]
'Verif.Exc.XBwd.copy_cost' depends on axioms: [propext, Classical.choice, Quot.sound]
'Verif.Exc.XLq.call_cost' depends on axioms: [propext, Classical.choice, Quot.sound]
'Verif.Exc.XLq.relinking_free' depends on axioms: [propext, Classical.choice, Quot.sound]
'Verif.Exc.XLq.insertion_cost' depends on axioms: [propext, Classical.choice, Quot.sound]
'Verif.Exc.XLq.traffic_cost' depends on axioms: [propext, Classical.choice, Quot.sound]
'Verif.Exc.XFv.call_cost' depends on axioms: [propext, Classical.choice, Quot.sound]
'Verif.Exc.XFv.append_cost' depends on axioms: [propext, Classical.choice, Quot.sound]
'Verif.Exc.XFv.insert_cost' depends on axioms: [propext, Classical.choice, Quot.sound]
'Verif.Exc.XFv.insert_range_cost' depends on axioms: [propext, Classical.choice, Quot.sound]
'Verif.Exc.XFv.erase_cost' depends on axioms: [propext, Classical.choice, Quot.sound]
'Verif.Exc.XFv.copy_cost' depends on axioms: [propext, Classical.choice, Quot.sound]
'Verif.Exc.XFv.fill_cost' depends on axioms: [propext, Classical.choice, Quot.sound]
'Verif.Exc.XFv.swap_cost' depends on axioms: [propext, Classical.choice, Quot.sound]
'Verif.Overload.count_selected_iff_partial' depends on axioms: [propext, Classical.choice, Quot.sound]
'Verif.Overload.same_type_selects_range' depends on axioms: [propext, Classical.choice, Quot.sound]
'Verif.Overload.range_selected_iff' depends on axioms: [propext, Classical.choice, Quot.sound]
'Verif.Overload.own_calls_count' depends on axioms: [propext, Quot.sound]
'Verif.Overload.lazy_ctor_count' depends on axioms: [propext, Quot.sound]
'Verif.Overload.map_range_insert' depends on axioms: [propext, Classical.choice, Quot.sound]
'Verif.Overload.one_selected' depends on axioms: [propext, Quot.sound]
'Verif.Overload.Selects.unique' depends on axioms: [propext, Classical.choice, Quot.sound]
'Verif.Exc.XRb.lookup_cost' depends on axioms: [propext, Classical.choice, Quot.sound]
'Verif.Exc.XRb.insert_cost' depends on axioms: [propext, Classical.choice, Quot.sound]
'Verif.Exc.XRb.insert_range_cost' depends on axioms: [propext, Classical.choice, Quot.sound]
'Verif.Exc.XRb.erase_cost' depends on axioms: [propext, Classical.choice, Quot.sound]
'Verif.Exc.XRb.copy_cost' depends on axioms: [propext, Classical.choice, Quot.sound]
'Verif.Exc.XRb.free_cost' depends on axioms: [propext, Classical.choice, Quot.sound]
'Verif.Exc.XSM.lookup_cost' depends on axioms: [propext, Classical.choice, Quot.sound]
'Verif.Exc.XSM.upper_cost' depends on axioms: [propext, Classical.choice, Quot.sound]
'Verif.Exc.XSM.insert_cost' depends on axioms: [propext, Classical.choice, Quot.sound]
'Verif.Exc.XSM.index_cost' depends on axioms: [propext, Classical.choice, Quot.sound]
'Verif.Exc.XSM.copy_cost' depends on axioms: [propext, Classical.choice, Quot.sound]
'Verif.Exc.XSM.other_cost' depends on axioms: [propext, Classical.choice, Quot.sound]
'Verif.Exc.XVec.call_cost' depends on axioms: [propext, Classical.choice, Quot.sound]
'Verif.Exc.XVec.making_cost' depends on axioms: [propext, Classical.choice, Quot.sound]
'Verif.Exc.XVec.insertion_cost' depends on axioms: [propext, Classical.choice, Quot.sound]
'Verif.Exc.XVec.removal_cost' depends on axioms: [propext, Classical.choice, Quot.sound]
'Verif.Exc.XVec.resize_cost' depends on axioms: [propext, Classical.choice, Quot.sound]
'Verif.Exc.XVec.reserve_cost_partial' depends on axioms: [propext, Classical.choice, Quot.sound]
'Verif.Exc.XVec.assignment_cost_partial' depends on axioms: [propext, Classical.choice, Quot.sound]
'Verif.Exc.XVec.assign_range_cost_partial' depends on axioms: [propext, Classical.choice, Quot.sound]
'Verif.Exc.XVec.reserve_capacity_moves' depends on axioms: [propext, Classical.choice, Quot.sound]
'Verif.Exc.XVec.assignment_reallocates' depends on axioms: [propext, Classical.choice, Quot.sound]
'Verif.Exc.XVec.assign_range_quadratic' depends on axioms: [propext, Classical.choice, Quot.sound]
'Verif.Exc.XVec.assign_range_not_linear' depends on axioms: [propext, Classical.choice, Quot.sound]
'Verif.Exc.XVM.find_present_cost' depends on axioms: [propext, Classical.choice, Quot.sound]
'Verif.Exc.XVM.absent_cost' depends on axioms: [propext, Classical.choice, Quot.sound]
'Verif.Exc.XVM.present_cost' depends on axioms: [propext, Classical.choice, Quot.sound]
'Verif.Exc.XVM.new_cost' depends on axioms: [propext, Classical.choice, Quot.sound]
'Verif.Exc.XVM.erase_key_cost' depends on axioms: [propext, Classical.choice, Quot.sound]
'Verif.Exc.XVM.base_cost' depends on axioms: [propext, Classical.choice, Quot.sound]
'Verif.Exc.XVM.count_present_no_cost' depends on axioms: [propext, Classical.choice, Quot.sound]
'Verif.Exc.XAlgo.findIf_does' depends on axioms: [propext, Classical.choice, Quot.sound]
'Verif.Exc.XAlgo.findIfNot_does' depends on axioms: [propext, Classical.choice, Quot.sound]
'Verif.Exc.XAlgo.quantifiers_does' depends on axioms: [propext, Classical.choice, Quot.sound]
'Verif.Exc.XAlgo.countIf_does' depends on axioms: [propext, Classical.choice, Quot.sound]
'Verif.Exc.XAlgo.equal4_does' depends on axioms: [propext, Classical.choice, Quot.sound]
'Verif.Exc.XAlgo.equal3_does' depends on axioms: [propext, Classical.choice, Quot.sound]
'Verif.Exc.XAlgo.mismatch4_does' depends on axioms: [propext, Classical.choice, Quot.sound]
'Verif.Exc.XAlgo.adjacentFind_does' depends on axioms: [propext, Classical.choice, Quot.sound]
'Verif.Exc.XAlgo.forEach_does' depends on axioms: [propext, Classical.choice, Quot.sound]
'Verif.Exc.XAlgo.accumulate_does' depends on axioms: [propext, Classical.choice, Quot.sound]
'Verif.Exc.XAlgo.lowerBound_does' depends on axioms: [propext, Classical.choice, Quot.sound]
'Verif.Exc.XAlgo.upperBound_does' depends on axioms: [propext, Classical.choice, Quot.sound]
'Verif.Exc.XAlgo.binarySearch_does' depends on axioms: [propext, Classical.choice, Quot.sound]
'Verif.Exc.XAlgo.equalRange_does' depends on axioms: [propext, Classical.choice, Quot.sound]
'Verif.Exc.XAlgo.fill_does' depends on axioms: [propext, Classical.choice, Quot.sound]
'Verif.Exc.XAlgo.fillN_does' depends on axioms: [propext, Classical.choice, Quot.sound]
'Verif.Exc.XAlgo.generate_does' depends on axioms: [propext, Classical.choice, Quot.sound]
'Verif.Exc.XAlgo.generateN_does' depends on axioms: [propext, Classical.choice, Quot.sound]
'Verif.Exc.XAlgo.iota_does' depends on axioms: [propext, Classical.choice, Quot.sound]
'Verif.Exc.XAlgo.replaceIf_does' depends on axioms: [propext, Classical.choice, Quot.sound]
'Verif.Exc.XAlgo.transform_in_place' depends on axioms: [propext, Classical.choice, Quot.sound]
'Verif.Exc.XAlgo.transform_does' depends on axioms: [propext, Classical.choice, Quot.sound]
'Verif.Exc.XAlgo.transform2_does' depends on axioms: [propext, Classical.choice, Quot.sound]
'Verif.Exc.XAlgo.removeIf_does' depends on axioms: [propext, Classical.choice, Quot.sound]
'Verif.Exc.XAlgo.copy_does' depends on axioms: [propext, Classical.choice, Quot.sound]
'Verif.Exc.XAlgo.copyN_does' depends on axioms: [propext, Classical.choice, Quot.sound]
'Verif.Exc.XAlgo.copyIf_does' depends on axioms: [propext, Classical.choice, Quot.sound]
'Verif.Exc.XAlgo.removeCopyIf_does' depends on axioms: [propext, Classical.choice, Quot.sound]
'Verif.Exc.XAlgo.replaceCopyIf_does' depends on axioms: [propext, Classical.choice, Quot.sound]
'Verif.Exc.XAlgo.reverseCopy_does' depends on axioms: [propext, Classical.choice, Quot.sound]
'Verif.Exc.XAlgo.copyBackward_does' depends on axioms: [propext, Classical.choice, Quot.sound]
'Verif.Exc.XAlgo.merge_does' depends on axioms: [propext, Classical.choice, Quot.sound]
'Verif.Exc.XAlgo.reverse_does' depends on axioms: [propext, Classical.choice, Quot.sound]
'Verif.Exc.XAlgo.swapRanges_does' depends on axioms: [propext, Classical.choice, Quot.sound]
'Verif.Exc.XAlgo.reverse_keeps_partial' depends on axioms: [propext, Classical.choice, Quot.sound]
'Verif.Exc.XAlgo.reverse_loses' depends on axioms: [propext, Classical.choice, Quot.sound]
'Verif.Exc.XAlgo.swapRanges_loses' depends on axioms: [propext, Classical.choice, Quot.sound]
'Verif.Exc.XAlgo.search_does' depends on axioms: [propext, Classical.choice, Quot.sound]
'Verif.Exc.XAlgo.searchN_does' depends on axioms: [propext, Classical.choice, Quot.sound]
'Verif.Exc.XAlgo.searchNPred_does' depends on axioms: [propext, Classical.choice, Quot.sound]
'Verif.Exc.XAlgo.isSortedUntil_does' depends on axioms: [propext, Classical.choice, Quot.sound]
'Verif.Exc.XAlgo.isSorted_does' depends on axioms: [propext, Classical.choice, Quot.sound]
'Verif.Exc.XAlgo.extrema_does' depends on axioms: [propext, Classical.choice, Quot.sound]
'Verif.Exc.XAlgo.mismatch3_does' depends on axioms: [propext, Classical.choice, Quot.sound]
'Verif.Rb.Edit.write_anything' depends on axioms: [propext, Classical.choice, Quot.sound]
'Verif.Rb.Edit.scribbled_calls_return' depends on axioms: [propext, Classical.choice, Quot.sound]
'Verif.Rb.Edit.scribbled_members' depends on axioms: [propext, Classical.choice, Quot.sound]
'Verif.Rb.Edit.scribbled_no_leak' depends on axioms: [propext, Classical.choice, Quot.sound]
'Verif.Rb.Edit.write_in_place_partial' depends on axioms: [propext, Classical.choice, Quot.sound]
'Verif.Rb.Edit.edited_calls_return_partial' depends on axioms: [propext, Classical.choice, Quot.sound]
'Verif.Rb.Edit.edited_members_partial' depends on axioms: [propext, Classical.choice, Quot.sound]
'Verif.Rb.Edit.find_misses_rekeyed' depends on axioms: [propext, Classical.choice, Quot.sound]
'Verif.Rb.Steps.one_step_links' depends on axioms: [propext, Classical.choice, Quot.sound]
'Verif.Rb.Steps.whole_loop_links' depends on axioms: [propext, Classical.choice, Quot.sound]
'Verif.Rb.Steps.clear_depth' depends on axioms: [propext, Classical.choice, Quot.sound]
'Verif.Rb.Steps.copy_depth' depends on axioms: [propext, Classical.choice, Quot.sound]
'Verif.Exc.XRb.subscript_outcome' depends on axioms: [propext, Classical.choice, Quot.sound]
'Verif.Exc.XRb.putAt_outcome' depends on axioms: [propext, Classical.choice, Quot.sound]
'Verif.Exc.XRb.putAt_leaves_key' depends on axioms: [propext, Classical.choice, Quot.sound]
'Verif.Exc.XRb.atPut_outcome' depends on axioms: [propext, Classical.choice, Quot.sound]
'Verif.Exc.XRb.insertPairs_outcome' depends on axioms: [propext, Classical.choice, Quot.sound]
'Verif.Exc.XRb.pairsCtor_outcome' depends on axioms: [propext, Classical.choice, Quot.sound]
'Verif.Exc.XRb.subscript_cost' depends on axioms: [propext, Classical.choice, Quot.sound]
'Verif.Exc.XRb.insertPairs_cost' depends on axioms: [propext, Classical.choice, Quot.sound]
'Verif.Rb.Container.call_confined' depends on axioms: [propext, Classical.choice, Quot.sound]
'Verif.Rb.Container.calls_apart' depends on axioms: [propext, Classical.choice, Quot.sound]
'Verif.Rb.Container.reads_confined' depends on axioms: [propext, Classical.choice, Quot.sound]
'Verif.Seq.DList.call_confined' depends on axioms: [propext, Classical.choice, Quot.sound]
'Verif.Seq.DList.calls_apart' depends on axioms: [propext, Classical.choice, Quot.sound]
'Verif.Seq.DList.reads_confined' depends on axioms: [propext, Classical.choice, Quot.sound]
'Verif.Seq.FList.call_confined' depends on axioms: [propext, Classical.choice, Quot.sound]
'Verif.Seq.FList.calls_apart' depends on axioms: [propext, Classical.choice, Quot.sound]
'Verif.Seq.FList.reads_confined' depends on axioms: [propext, Classical.choice, Quot.sound]
'Verif.Seq.BList.call_confined' depends on axioms: [propext, Classical.choice, Quot.sound]
'Verif.Seq.BList.calls_apart' depends on axioms: [propext, Classical.choice, Quot.sound]
'Verif.Seq.BList.reads_confined' depends on axioms: [propext, Classical.choice, Quot.sound]
'Verif.Seq.LQueue.call_confined' depends on axioms: [propext, Classical.choice, Quot.sound]
'Verif.Seq.LQueue.calls_apart' depends on axioms: [propext, Classical.choice, Quot.sound]
'Verif.Seq.LQueue.reads_confined' depends on axioms: [propext, Classical.choice, Quot.sound]
'Verif.Vec.call_confined' depends on axioms: [propext, Classical.choice, Quot.sound]
'Verif.Vec.calls_apart' depends on axioms: [propext, Classical.choice, Quot.sound]
'Verif.Vec.reads_confined' depends on axioms: [propext, Classical.choice, Quot.sound]
'Verif.Vec.FV.call_confined' depends on axioms: [propext, Classical.choice, Quot.sound]
'Verif.Vec.FV.calls_apart' depends on axioms: [propext, Classical.choice, Quot.sound]
'Verif.Vec.FV.reads_confined' depends on axioms: [propext, Classical.choice, Quot.sound]
'Verif.SVMap.call_confined' depends on axioms: [propext, Classical.choice, Quot.sound]
'Verif.SVMap.calls_apart' depends on axioms: [propext, Classical.choice, Quot.sound]
'Verif.SVMap.reads_confined' depends on axioms: [propext, Classical.choice, Quot.sound]
'Verif.VMap.call_confined' depends on axioms: [propext, Classical.choice, Quot.sound]
'Verif.VMap.calls_apart' depends on axioms: [propext, Classical.choice, Quot.sound]
'Verif.VMap.reads_confined' depends on axioms: [propext, Classical.choice, Quot.sound]
'Verif.Seq.DList.throw_confined' depends on axioms: [propext, Classical.choice, Quot.sound]
'Verif.Seq.DList.throws_apart' depends on axioms: [propext, Classical.choice, Quot.sound]
'Verif.Seq.FList.throw_confined' depends on axioms: [propext, Classical.choice, Quot.sound]
'Verif.Seq.FList.throws_apart' depends on axioms: [propext, Classical.choice, Quot.sound]
'Verif.Seq.BList.throw_confined' depends on axioms: [propext, Classical.choice, Quot.sound]
'Verif.Seq.BList.throws_apart' depends on axioms: [propext, Classical.choice, Quot.sound]
'Verif.Seq.LQueue.throw_confined' depends on axioms: [propext, Classical.choice, Quot.sound]
'Verif.Seq.LQueue.throws_apart' depends on axioms: [propext, Classical.choice, Quot.sound]
'Verif.Vec.throw_confined' depends on axioms: [propext, Classical.choice, Quot.sound]
'Verif.Vec.throws_apart' depends on axioms: [propext, Classical.choice, Quot.sound]
'Verif.Vec.FV.throw_confined' depends on axioms: [propext, Classical.choice, Quot.sound]
'Verif.Vec.FV.throws_apart' depends on axioms: [propext, Classical.choice, Quot.sound]
'Verif.Exc.XRb.throw_confined' depends on axioms: [propext, Classical.choice, Quot.sound]
'Verif.Exc.XRb.throws_apart' depends on axioms: [propext, Classical.choice, Quot.sound]
