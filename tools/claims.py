B='Verif.Bitset'; A='Verif.Algo'
c('C47','proved',ns(B,'test_reports set_sets_one_bit reset_clears_one_bit flip_flips_one_bit'))
c('C48','partial',ns(B,'set_value_assigns_partial set_value_ors set_false_does_nothing set_value_assigns_false'),
  'False of the code for value=false: set(pos,false) is a no-op. Proved for value=true; exact effect and refutation proved.')
c('C49','partial',ns(B,'ref_assign_bool ref_get ref_not ref_flip ref_assign_ref_effect ref_assign_ref_partial ref_assign_ref_false'),
  'Proved for b[i]=bool, ~b[i], b[i].flip(), conversion. False of the code for b[i]=b[j] (clears the rest of the slot); exact effect and refutation proved.')
c('C50','proved',ns(B,'set_all_pointwise reset_all_pointwise flip_all_pointwise complement_pointwise and_assign_pointwise or_assign_pointwise xor_assign_pointwise assign_copies'))
c('C51','proved',ns(B,'shl_shifts shr_shifts shl_assign_shifts shr_assign_shifts'))
c('C52','proved',ns(B,'all_iff any_iff none_iff eq_iff count_counts to_ulong_low_bits kernighan_popcount all_zero_false'),
  'all() for N=0 answers false (all_zero_false).')
c('C53','partial',ns(B,'assign_width_preserves_partial assign_width_effect assign_width_preserves_false'),
  'False of the code when widening a bitset whose padding bits are set, e.g. after set() or flip(); exact effect proved.')
c('C54','partial',ns(B,'from_ulong_bits from_ulong_zero_oob from_string_bits_partial from_string_overflow'),
  'Integers: proved for N>0; bitset<0>(v) writes out of bounds. Strings: proved when the digits fit the storage; every longer string writes out of bounds (from_string_overflow).')
c('C55','proved',ns(A,'find_if_returns_first_match find_returns_first_match find_if_not_returns_first_mismatch'))
c('C56','proved',ns(A,'all_of_iff any_of_iff none_of_iff'))
c('C57','proved',ns(A,'count_if_counts count_counts count_if_overflow'),'The count is an int; more than 2^31-1 matches overflow (count_if_overflow).')
c('C58','proved',ns(A,'search_returns_first_occurrence'))
c('C59','partial',ns(A,'search_n_returns_first_run search_n_pred_returns_first_run_partial search_n_pred_wrong'),
  'Proved for operator==. The predicate overload looks for the first element with == and is wrong for other predicates (search_n_pred_wrong); proved when the predicate is implied by equality of the first element.')
c('C60','proved',ns(A,'adjacent_find_returns_first'))
c('C61','proved',ns(A,'equal3_iff equal4_iff equal4_eq_iff mismatch3_returns_first_difference mismatch4_returns_first_difference'))
c('C62','proved',ns(A,'copy_copies copy_n_copies copy_n_nonpositive copy_if_copies copy_backward_copies'))
c('C63','proved',ns(A,'remove_copy_if_copies remove_copy_copies remove_if_compacts remove_compacts'))
c('C64','proved',ns(A,'fill_fills fill_n_fills fill_n_nonpositive generate_writes_successive_values generate_n_writes_successive_values replace_if_maps replace_maps replace_copy_if_maps replace_copy_maps transform_maps transform2_zips iota_writes_successors'))
c('C65','proved',ns(A,'reverse_reverses reverse_copy_reverses'))
c('C66','proved',ns(A,'swap_ranges_exchanges'))
c('C67','proved',ns(A,'lower_bound_partition_point upper_bound_partition_point lower_bound_sorted upper_bound_sorted equal_range_sorted binary_search_sorted lower_bound_wrong_at_2_31'),
  'Proved for ranges shorter than 2^31 elements; the distance is kept in an int, and 2^31 elements already break it (lower_bound_wrong_at_2_31).')
c('C68','proved',ns(A,'is_sorted_until_returns_first_descent is_sorted_iff'))
c('C69','proved',ns(A,'merge_writes merge_sorted_stable'))
c('C70','proved',ns(A,'min_element_returns_first_min max_element_returns_first_max minmax_element_returns_extrema'))
c('C71','proved',ns(A,'min_is_minimum max_is_maximum minmax_orders min_tie_returns_second'))
R='Verif.Rb.Container'; M='Verif.Rb.Multi'
c('C01','proved',ns('Verif.Rb.MapApi','map_history spec_deterministic')+' '+ns(R,'calls_return exists_reach exists_reach_257'))
c('C02','proved',ns('Verif.Rb.SetApi','set_history'))
c('C03','proved',ns(R,'iteration iteration_covers_memory'))
c('C04','proved',ns(R,'depth_logarithmic comparisons_logarithmic'))
c('C05','proved',ns(R,'lower_bound_first'))
c('C06','partial',ns(R,'upper_bound_first_partial upper_bound_wrong_when_absent upper_bound_counterexample upper_bound_computes rbtree_upper_bound_first'),
  'Proved for rbtree::upper_bound and for map/set::upper_bound of a present key. False of the code for an absent key: map/set skip one element (upper_bound_wrong_when_absent).')
c('C07','proved',ns(R,'insert_spec'))
c('C08','proved',ns(R,'erase_spec'))
c('C09','proved',ns(R,'insert_keeps_elements'))
c('C10','proved',ns(R,'copy_is_deep assign_is_deep independent'))
c('C11','partial',ns(R,'self_assign_empties self_assign_keeps_empty_partial self_assign_counterexample'),
  'False of the code: operator= clears first, so every non-empty container is emptied by self-assignment (self_assign_empties).')
c('C12','proved',ns(M,'insert_equal_stable multi_iteration multi_bounds'))
c('C13','partial',ns(M,'count_bounds_partial count_wrong_for_many count_unique_partial count_counterexample'),
  'False of the code: with three equal elements count answers 2 (count_counterexample), and it is too small for every group of more than 2 log2(n+1) equal elements (count_wrong_for_many). Proved: exact for unique keys; never more than the real number, never more than 2 log2(n+1), and positive iff present.')
c('C14','proved',ns(R,'iterators_inverse'))
c('C15','proved',ns(R,'clear_frees_exactly destroy_frees_exactly no_leak'))
c('C16','proved',ns(R,'erase_frees_exactly'))
L='Verif.Seq.ListProps'
c('C17','proved',ns(L,'list_history new_list_history call_returns'))
c('C18','proved',ns(L,'backward_mirrors_forward'))
c('C19','proved',ns(L,'insert_range_inserts insert_n_inserts insert_list_inserts insert_returns_new'))
c('C20','partial',ns(L,'erase_removes erase_range_partial erase_range_wrong erase_empty_range_ub'),
  'Proved for erase(pos). erase(first,last) as written leaves the last element of the range in the list (erase_range_wrong) and erase(p,p) is undefined behaviour (erase_empty_range_ub); erase_range_partial says exactly what it does.')
c('C21','partial',ns(L,'clear_partial use_after_clear_ub'),
  'Proved: frees each node once, begin()==end(), empty(). Not usable again: head_.prev dangles, so the next push/insert is use after free (use_after_clear_ub).')
c('C22','proved',ns(L,'reverse_reverses'))
c('C23','partial',ns(L,'remove_if_removes remove_removes_partial remove_own_element_ub'),
  'Proved for remove_if and for remove(v) when v is not a reference to an element of the list; remove(l.front()) and the like read the freed element (remove_own_element_ub).')
c('C24','proved',ns(L,'unique_keeps_first_of_runs'))
c('C25','proved',ns(L,'merge_merges'))
c('C26','partial',ns(L,'splice_moves_partial splice_within_partial splice_all_moves_partial splice_one_moves splice_empty_range_breaks splice_all_empty_breaks splice_to_own_end_loses'),
  'Proved for non-empty ranges/lists and positions outside the range. Empty ranges and lists corrupt the links, and splicing to the position equal to last loses the elements (negative theorems).')
c('C27','partial',ns(L,'swap_exchanges_partial swap_empty_breaks'),
  'Proved unless both lists are empty; swapping two empty lists links each header to the other (swap_empty_breaks).')
c('C28','partial',ns(L,'resize_resizes_partial resize_zero_keeps'),'Proved for n > 0; resize(0) does nothing (resize_zero_keeps).')
c('C72','partial',ns(L,'copy_copies assign_copies_partial construct_from_range construct_n assign_range_partial assign_n_partial assign_nonempty_ub assign_range_nonempty_ub assign_n_nonempty_ub assign_nothing self_assign_empties'),
  'Proved for the constructors and for assignment to an empty list from another one. Assigning to a non-empty list is undefined behaviour (clear leaves head_.prev dangling), self-assignment empties the list.')
c('C73','proved',ns(L,'equal_compares not_equal_compares equal_compares_values'))
c('C74','proved',ns(L,'no_leak lists_disjoint destroy_frees'))
c('C75','proved',ns(L,'elements_stay elements_stay_or_go'))

F='Verif.Seq.FwdProps'
c('C29','proved',ns(F,'list_history new_list_history call_returns insert_after_returns_new erase_after_removes insert_n_own_element'))
c('C30','partial',ns(F,'splice_moves_partial splice_within_before_partial splice_within_behind_partial splice_all_moves_partial splice_one_moves splice_one_within_partial splice_all_empty_loses splice_empty_range_shares splice_one_behind_itself_loses splice_to_own_start_loses'),
  'Proved for non-empty ranges and lists, and positions outside the moved range. Splicing an empty list drops the rest of the destination, an empty range makes two lists share nodes, and moving elements to where they are loses them (negative theorems, for all lists).')
c('C31','proved',ns(F,'reverse_reverses'))
c('C76','partial',ns(F,'copy_copies assign_copies_partial construct_from_range construct_n assign_n_partial self_assign_empties assign_n_own_element_ub'),
  'Proved except for two aliasing cases where the code is wrong: self-assignment empties the list, and assign(n, v) with an own element v reads the destroyed element.')
c('C77','proved',ns(F,'equal_compares not_equal_compares equal_compares_values'))
c('C78','proved',ns(F,'no_leak lists_disjoint destroy_frees elements_stay elements_stay_or_go'))
c('C79','proved',ns(F,'swap_swaps swap_self'))

c('C80','proved',ns('Verif.Algo','for_each_applies_in_order accumulate_folds'))
B='Verif.Seq.BwdProps'
c('C32','partial',ns(B,'list_history_partial new_list_history_partial contents_history_partial call_returns insert_after_returns_new erase_after_removes insert_n_own_element clear_restores reverse_reverses_partial insert_range_at_end_loses_end pop_last_element_breaks reverse_empty_breaks'),
  'Proved for every history that does not pop the only element, insert or assign a non-empty range at the end, or reverse an empty list; and for the contents (not back/empty) of every history without push_back. In the excluded cases the code leaves tail_ wrong: negative theorems, for all lists.')
c('C81','partial',ns(B,'construct_empty construct_n assign_n_partial copy_loses_end construct_from_range_loses_end assign_loses_end assign_range_loses_end self_assign_empties assign_n_own_element_ub'),
  'The contents are always right for distinct lists (first parts of the *_loses_end theorems), and everything is right for (n, v). After copying a range or a list empty() is true and push_back prepends; self-assignment empties; assign(n, own element) is undefined behaviour.')
c('C82','proved',ns(B,'equal_compares not_equal_compares equal_compares_values'))
c('C83','proved',ns(B,'no_leak lists_disjoint destroy_frees elements_stay elements_stay_or_go'))
c('C84','partial',ns(B,'swap_contents swap_swaps_partial swap_self swap_with_empty_breaks'),
  'Contents are always exchanged; both lists stay usable if both are non-empty. Swapping with an empty list leaves the emptied one with before_end() inside the other list (swap_with_empty_breaks).')

Q='Verif.Seq.LazyProps'
c('C33','proved',ns(Q,'queue_history new_queue_history fifo pop_then_push_reuses call_returns insert_after_returns_new erase_after_removes insert_n_own_element roll_head_rolls roll_head_empty'))
c('C34','partial',ns(Q,'cleanup_frees_partial destroy_frees_partial cleanup_double_destroys destroy_double_destroys push_pop_destroy_ub clear_destroy_ub'),
  'Proved for types with a trivial destructor, and for queues that keep no node for reuse. Otherwise cleanup() and the destructor delete pooled nodes whose value put_node has destroyed already: every value in the pool is destroyed twice (negative theorems for every reachable queue with a pooled node).')
c('C85','proved',ns(Q,'memory_high_water steady_state no_leak queues_disjoint'))
c('C86','partial',ns(Q,'copy_copies construct_n assign_copies_partial self_assign_empties'),
  'Proved for the constructors and for assignment between different queues. Self-assignment empties the queue (self_assign_empties).')
c('C87','partial',ns(Q,'swap_swaps_partial swap_self swap_with_empty_breaks'),
  'Proved for two non-empty queues. After a swap with an empty queue the emptied one keeps before_end() inside the other queue and its push_back inserts there (swap_with_empty_breaks).')
c('C88','proved',ns(Q,'elements_stay roll_head_rolls'))

V='Verif.Vec.VecProps'
c('C35','proved',ns(V,'vector_history new_vector_history call_returns'))
c('C36','partial',ns(V,'slots_exactly nothing_else blocks_disjoint destroy_releases destroyed_all vector_life call_returns erase_empty_range_ub insert_own_element_ub assign_n_own_element_ub assign_own_range_ub'),
  'Proved for every history of calls that are Legal (arguments before the insertion point or outside the vector, non-empty erased ranges). The remaining calls break lifetimes in the code: erase(p, p), insert of an own element within capacity, assign from own elements (negative theorems, for all vectors).')
c('C37','partial',ns(V,'erase_empty_range_partial erase_empty_range_ub'),
  'True only at end(). For every position that designates an element, erase(p, p) constructs the element on top of itself and destroys it: undefined behaviour (erase_empty_range_ub, all vectors).')
c('C38','partial',ns(V,'push_back_element insert_element_partial insert_own_element_ub insert_own_element_wrong insert_own_range_ub'),
  'push_back is always right; insert is right for elements before the insertion point, at the end, or when it reallocates. Otherwise it reads a destroyed element or inserts v[a-n] (negative theorems, for all vectors).')
c('C39','proved',ns(V,'reserve_contract fits_no_reallocation reserve_then insert_keeps_before reserve_capacity_moves'))
c('C89','partial',ns(V,'copy_copies construct_default construct_n construct_from_values construct_from_range assign_copies_partial assign_n_partial assign_range_partial self_assign_empties assign_n_own_element_ub assign_own_range_ub'),
  'Proved except for aliasing: self-assignment empties the vector, assign(n, own element) and assign(own range) read destroyed elements (negative theorems).')
c('C90','proved',ns(V,'swap_swaps'))
c('C91','proved',ns(V,'equal_compares equal_iff_same'))
c('C92','proved',ns(V,'insert_returns_new insert_one_returns_new insert_values_returns_new insert_range_returns_new insert_element_partial erase_returns_next erase_one_returns_next'))
c('C93','proved',ns(V,'independent'))

F='Verif.Vec.FV.FVProps'
c('C40','partial',ns(F,'slots_exactly nothing_else destroy_releases destroyed_all fixed_vector_life call_returns swap_longer_ub erase_empty_range_ub insert_own_element_ub assign_n_own_element_ub assign_own_range_ub'),
  'Proved for every history of legal calls. The remaining calls access slots without an object: swap with a shorter fixed_vector, erase(p, p), insert/assign of own elements (negative theorems, for all fixed vectors).')
c('C41','proved',ns(F,'fixed_vector_history new_fixed_vector_history push_back_truncates insert_truncates insert_range_truncates call_returns'))
c('C42','partial',ns(F,'swap_exchanges_partial swap_longer_ub'),'True if this->size() <= x.size(); otherwise it is undefined behaviour (swap_longer_ub, all fixed vectors).')
c('C94','partial',ns(F,'erase_returns_next erase_empty_range_partial erase_empty_range_ub push_back_element insert_element_partial insert_own_element_ub insert_own_element_wrong'),
  'push_back is always right, insert is right for elements before the insertion point or insertion at the end. erase(p, p) and insert of own elements behind the insertion point are wrong in the code (negative theorems).')
c('C95','partial',ns(F,'copy_copies construct_default construct_n construct_from_values construct_from_range assign_copies_partial assign_n_partial assign_range_partial self_assign_empties assign_n_own_element_ub assign_own_range_ub'),
  'Proved except for aliasing: self-assignment empties, assign from own elements reads destroyed elements (negative theorems).')
c('C96','proved',ns(F,'equal_compares'))
c('C97','proved',ns(F,'independent'))

M='Verif.SVMap.SMProps'
c('C43','partial',ns(M,'reach_observes dictionary_history_partial new_dictionary_history_partial search_wraps every_size find_misses_present'),
  'Proved for histories that stay within 2^32 elements. bsearch keeps the size in an unsigned: a map with 2^32 elements (every_size: such maps are reachable) looks empty to it, find misses every key and insert adds present keys again (search_wraps, find_misses_present).')
c('C44','partial',ns(M,'call_returns nothing_else destroyed_all destroy_releases map_life_partial capacity_one_overflows'),
  'Proved for every history without sorted_vector_map(1). A map constructed with room for one element never grows: the second insertion writes out of bounds (capacity_one_overflows, from every reachable memory).')
c('C45','partial',ns(M,'count_inverted'),'The code computes the negation for every map and key (count_inverted).')
c('C98','partial',ns(M,'reach_observes at_absent_ub count_inverted'),'reach_observes gives Observes, whose Searches part states every search function; equal_range of an absent key is the empty range at end(), not at the lower bound. at of an absent key is undefined behaviour (at_absent_ub).')
c('C99','proved',ns(M,'insert_new insert_present index_refers'))
c('C100','proved',ns(M,'references_stable'))
c('C101','proved',ns(M,'copy_copies'))
c('C102','proved',ns(M,'independent'))

W='Verif.VMap.VMProps'
c('C46','partial',ns(W,'find_finds vcall_returns at_absent_ub count_absent_partial count_present_diverges'),
  'find and at are right for every reachable map, also with repeated keys. count returns 0 for an absent key, but never returns for a present one: find_key(i, key) returns i again (count_present_diverges, all maps). at of an absent key is undefined behaviour (at_absent_ub).')
c('C103','proved',ns(W,'insert_new insert_element insert_present index_refers'))
c('C104','proved',ns(W,'dictionary_history new_dictionary_history'))

c('C105','proved',ns('Verif.Arr.ArrProps','array_history fill_own empty_front_back'))
c('C106','proved',ns('Verif.Arr.ArrProps','equal_compares equal_iff_same'))
U='Verif.Util.UtilProps'
c('C107','proved',ns(U,'pair_swap pair_assign pair_assign_converts pair_equal'))
c('C108','partial',ns(U,'distance_exact_partial distance_wraps'),'distance returns int: exact up to INT_MAX, and wrong for every longer range (distance_wraps).')
Y='Verif.Traits.TraitsProps'
c('C109','partial',ns(Y,'isConst_iff_partial isVolatile_iff_partial isConst_rref removeConst_spec removeVolatile_spec removeCv_spec removeReference_spec'),'Proved for every type except rvalue references as arguments of is_const and is_volatile: those instantiations form a pointer to a reference and do not compile (isConst_rref).')
c('C110','proved',ns(Y,'isIntegral_iff isFloating_iff isVoid_iff isSigned_iff isUnsigned_iff signed_or_unsigned isPointer_iff isArray_iff composite_iff isSame_iff categories_disjoint'))

c('C111','partial',ns('Verif.Rb.Weak','weak_calls_return_partial weak_iteration_partial weak_insert_partial weak_find_partial weak_lower_bound_partial weak_erase_partial find_misses_equivalent erase_loses_equivalent'),
  'False of the code: the search loops test key == x after key < x, so an equivalent unequal key sends them right: insert adds an equivalent key, then find and count miss keys that are present and insert adds an equal key twice (find_misses_equivalent, for any two equivalent unequal keys). erase(k) with an equivalent element behind k can cut off, lose and leak an innocent third element (erase_loses_equivalent, for any such keys). Proved, for all histories that never erase a key that an equivalent element follows: every call returns, iteration is weakly ascending, lower_bound and erase are right, insert/find are right unless an equivalent unequal key is present. Nothing else is missing: outside those histories the tree loses its invariants.')
c('C112','proved',ns('Verif.Rb.Ref','own_key_is_a_copy erase_own_key insert_own_element subscript_own_key'))
c('C113','partial',ns('Verif.Rb.MapAt','at_present_partial at_absent_ub'),'Proved for present keys. at of an absent key reads the value of the header node, which has none: undefined behaviour for every map and absent key (at_absent_ub).')
c('C114','partial',ns('Verif.Seq.ListProps','self_merge'),'False of the code for every non-empty list. self_merge decides the outcome for every sorted list: if two equivalent elements are followed by a greater one the call never returns, otherwise it returns with the list empty and its nodes leaked.')
c('C115','proved',ns('Verif.Rb.Range','insert_other_range insert_own_range construct_from_range'))
c('C116','partial',ns('Verif.Algo','fill_own_value fill_n_own_value replace_if_own_value replace_copy_own_values remove_copy_own_value replace_other_value_partial replace_own_old_value remove_other_value_partial remove_own_value'),
  'Holds for fill, fill_n, replace_if, replace_copy and remove_copy. replace and remove re-read their argument after overwriting it (as std does): proved if the argument is outside the range, and the exact other outcome is proved otherwise (replace_own_old_value, remove_own_value).')

G='Verif.Gen'
c('C117','proved',ns(G,'list_algorithms forward_list_algorithms backward_list_algorithms lazy_queue_algorithms vector_algorithms fixed_vector_algorithms vector_map_algorithms map_set_ranges sorted_vector_map_ranges array_algorithms list_presents fwd_presents bwd_presents lazy_presents vec_presents vec_random fv_presents fv_random tree_presents sorted_presents vmap_presents array_presents'),'For lists with intact structure (see the self-merge and splice bugs).')
c('C118','proved',ns(G,'find_if_calls find_if_not_calls quantifiers_calls count_if_calls equal_calls modifying_calls copying_calls find_if_any find_if_not_any quantifiers_any count_if_any equal4_any equal3_any mismatch4_any adjacent_find_any replace_if_any remove_if_any transform_any copy_if_any remove_copy_if_any replace_copy_if_any generate_any generate_n_any transform2_any merge_comparisons lower_bound_any upper_bound_any binary_search_any equal_range_any'),'Binary searches and count_if for ranges below 2^31 elements.')
c('C119','proved',ns(G,'list_algorithms forward_list_algorithms backward_list_algorithms lazy_queue_algorithms vector_algorithms fixed_vector_algorithms vector_map_algorithms array_algorithms Presents.works Presents.works_part list_presents2 fwd_presents2 bwd_presents2 lazy_presents2 vec_presents2 fv_presents2 Presents.both BiPresents.both Presents2.transform Presents2.copy Presents2.copy_n Presents2.copy_if Presents2.remove_copy_if Presents2.replace_copy_if Presents2.swap_ranges BiPresents.reverse BiPresents2.reverse_copy BiPresents2.copy_backward At.copy At.copy_if At.remove_copy_if At.transform At.merge copy_left copy_if_left merge_any'),'remove_if leaves unspecified values behind the new end (as std). Containers in different memories stand for containers of different kinds.')

A='Verif.SVMap.AnyProps'
c('C120','partial',ns(A,'any_call_returns_partial any_lists_partial any_insert_partial any_index_partial any_find_sound_partial any_no_leak_partial'),'Missing only: maps made with sorted_vector_map(1), which overflow their array (see the finding on prealloc 1). No assumption on the comparator or the number of elements.')
c('C121','partial',ns(A,'weak_sorted_partial weak_lower_bound_partial weak_find_partial weak_insert_partial weak_loses_keys'),'False of the code: bsearch tests == first and goes left at an equivalent unequal key, so insert keeps all equivalent keys, and with any three of them the first is not found any more and can be inserted twice (weak_loses_keys). Proved below 2^32 elements: iteration is weakly ascending, lower_bound separates, and find and insert are right unless an equivalent unequal key is present.')
c('C122','proved',ns(A,'find_examines_few'),'')
c('C123','partial',ns('Verif.Rb.AnyOrder','any_calls_return_partial any_iteration_partial any_insert_partial any_find_partial any_erase_partial any_no_leak_partial')+' '+ns('Verif.Rb.Weak','erase_loses_equivalent'),'No assumption on the comparator. Excluded is only erase(k) while an element with key k is followed by one that k is not less than; there the property is false of the code (erase_loses_equivalent: another element is lost and leaked).')

c('C124','partial',ns('Verif.Seq.ListProps','insert_range_partial insert_range_same insert_own_range_endless construct_range assign_part_partial assign_own_range_ub assign_nonempty_ub')+' '+ns('Verif.Seq.FwdProps','insert_range_partial insert_range_same insert_own_range_endless construct_range assign_part_partial assign_own_range_ub')+' '+ns('Verif.Seq.BwdProps','insert_range_partial insert_range_same insert_own_range_endless insert_part_at_end_loses_end construct_range_same construct_part_loses_end assign_range_same assign_part_loses_end assign_own_range_ub')+' '+ns('Verif.Seq.LazyProps','insert_range_partial insert_range_same insert_own_range_endless'),'Proved for parts of other lists and for own parts unless the element in front of (at) the position is in the part; there the insertion never returns (insert_own_range_endless). False of the code besides: assign with a non-empty own part is UB, assign of list on a non-empty list is UB, backward_list at its end loses before_end().')

c('C125','proved',ns('Verif.Util','less_order greater_order exactly_one equal_or_not tree_descends lower_bound_descending upper_bound_descending binary_search_descending merge_descending sorted_map_descends greater_needs_gt not_equal_to_needs_ne equal_and_not'),'')

c('C126','proved',ns('Verif.Exc.XList','call_points call_outcome XReach.reach XReach.goes_on interrupted_unique push_back_strong push_front_strong insert_strong insert_range_interrupted remove_if_interrupted merge_interrupted XReach.lreach LReach.goes_on LReach.observes LReach.storage'),'XReach: histories without throwing constructors. LReach adds constructors that throw, which lose nodes (C127): calls still return or throw as stated and every list is seen as it should be.')
c('C127','partial',ns('Verif.Exc.XList','ctor_first_throw_clean_partial ctor_vals_points ctor_n_points copy_ctor_points ctor_throw_leaks assign_throw_loses LReach.goes_on LReach.storage LReach.all_destroyed LReach.lost_stay'),'False of the code: the destructor of a list whose constructor throws is not run, so the k elements made before the throw leak (ctor_throw_leaks; *_points: that is the only trace, other lists are unchanged; LReach.*: over any history what is lost is exactly the union of these nodes, never touched again, and everything else goes on as if nothing had been lost); operator= loses the old elements (assign_throw_loses). Proved: nothing is left when the first element throws.')
c('C128','partial',ns('Verif.Exc.XVec','call_points call_outcome insert_counted erase_counted returns_same XReach.fine XReach.goes_on throw_others_kept reach_xreach growth_strong_partial failed_allocation_no_trace throwing_copy_leaks unowned_stays in_place_throw_ruins push_back_throw_ruins erase_throw_ruins resize_throw_ruins reserve_can_throw'),'False of the code. Proved for all histories, also those that go on after a vector was ruined (XReach.goes_on, throw_others_kept: no other vector is ever concerned): every call that reserves, constructs, or inserts into a new block has the strong guarantee except that the new block leaks if an element copy throws (growth_strong_partial, throwing_copy_leaks; failed_allocation_no_trace: no trace if the allocation fails). An insertion within the capacity or an erasure that throws leaves a vector that counts a slot without object: clear, iteration and the destructor are undefined behaviour (in_place_throw_ruins, push_back_throw_ruins, erase_throw_ruins). call_outcome says for every call and point what is left; assignments have cleared the vector first.')
c('C129','partial',ns('Verif.Exc.XRb','call_points call_outcome XReach.goes_on iteration lookups backward_partial memory no_leak only_copies_lose insert_strong erase_interrupted XReach.returns backward_after_throw_fails erase_after_throw_loses copy_leaks assign_leaks'),'False of the code in three ways: an erase that throws leaves the colours unrepaired, so that --it on the second of three elements gives end() (backward_after_throw_fails) and the next erase may take a second element away and leak it (erase_after_throw_loses, for every container of four elements); an interrupted copy or assignment leaks the nodes made so far (copy_leaks, assign_leaks). Proved for all histories without erase on a container whose last erase threw: every call returns or throws and goes on, forward iteration, find and lower_bound are right, insert has the strong guarantee, an interrupted erase keeps all elements in their nodes, nothing else leaks; backward iteration unless the last erase threw.')
c('C130','partial',ns('Verif.Exc.XSM','call_points XRuns.goes_on lists observes unchanged others_unchanged lost memory no_leak separate lookups ruined_map insert_ruins insert_leaks copy_leaks insert_never_safe'),'False of the code: every insertion of an absent key has a point where an exception does damage (insert_never_safe). Into a map with room, the map counts one element too many afterwards: an element is seen twice and destroyed twice, or iteration is undefined behaviour (insert_ruins, ruined_map); into a full map, the new array leaks (insert_leaks); a copy constructor leaks the k + 1 blocks made so far (copy_leaks). Proved for all histories in which a map whose size changed at a throw is not used again: every call returns or throws (XRuns.goes_on), call_points counts the points, all other maps keep their elements, a thrown call that did not change the size had no effect on the map, iteration and lookups are right, and only insertions into full maps and copies leak.')

XF='Verif.Exc.XFwd'
XB='Verif.Exc.XBwd'
c('C131','proved',ns(XF,'call_points call_outcome XReach.reach XReach.goes_on interrupted_unique push_front_strong insert_strong insert_range_interrupted assign_interrupted XReach.lreach LReach.goes_on LReach.observes LReach.storage'),'XReach: histories without throwing constructors. LReach adds constructors that throw, which lose nodes (C132): calls still return or throw as stated and every list is seen as it should be.')
c('C132','partial',ns(XF,'ctor_first_throw_clean_partial ctor_vals_points ctor_n_points copy_ctor_points ctor_throw_leaks assign_throw_loses LReach.goes_on LReach.storage LReach.all_destroyed LReach.lost_stay')+' '+ns(XB,'ctor_first_throw_clean_partial ctor_vals_points ctor_n_points copy_ctor_points ctor_throw_leaks assign_throw_loses LReach.goes_on LReach.storage LReach.all_destroyed LReach.lost_stay'),'False of the code, as for list: the k elements made before the throw leak (ctor_throw_leaks; *_points: that is the only trace; LReach.*: over any history what is lost is exactly these nodes, never touched again, and everything else goes on as if nothing had been lost), operator= loses the old elements (assign_throw_loses). Proved: nothing is left when the first element throws.')
c('C133','partial',ns(XB,'call_points call_outcome XReach.reach XReach.goes_on interrupted_unique push_front_strong push_back_strong insert_strong insert_range_interrupted assign_interrupted insert_n_throw_loses_end XReach.lreach LReach.goes_on LReach.shows LReach.observes LReach.storage'),'False of the code for before_end(): an insert_after(before_end(), n, v) left by an exception at the second or a later copy has inserted elements but not moved before_end(), so the next push_back inserts in the middle (insert_n_throw_loses_end). Everything else is proved: elements intact, no leak, no undefined behaviour, other lists unchanged, histories go on; before_end() stays right for insertions before the last element.')

XQ='Verif.Exc.XLq'
c('C134','partial',ns(XQ,'call_points call_outcome queue_observes memory lost_forever reach_xreach single_throw_partial push_back_throw_leaks copy_ctor_interrupted ctor_n_interrupted'),'False of the code only for leaks: if copying the value throws, get_node loses the node it took (push_back_throw_leaks), and a constructor that throws loses all nodes made so far (copy_ctor_interrupted, ctor_n_interrupted, with their number). Everything else is proved for all histories: call_outcome (every call returns or throws, at any of its points), single_throw_partial (no effect but at most one lost node), memory (all storage belongs to a queue or is lost).')
c('C135','partial',ns(XQ,'call_outcome queue_observes memory insert_range_interrupted_partial insert_n_interrupted_partial assign_interrupted_partial assign_throw_loses stale_queue stale_push_back insert_end_throw_loses_end stale_pop_push_loses stale_clear stale_destroy'),'False of the code: an insertion behind the last element left by an exception after the first element does not set the end, so back() is an old element (or undefined behaviour if the queue was empty) and push_back inserts in the middle (insert_end_throw_loses_end, stale_push_back), or loses its element (stale_pop_push_loses); operator= has dropped the old elements (assign_throw_loses); a node may be lost as in C134. Proved: the first elements are inserted in order and nothing else changes, the queue is fully in order if the position was not the last element or nothing was inserted; iteration is right in any case and clear() or the destructor put it right.')

XV='Verif.Exc.XFv'
c('C136','partial',ns(XV,'call_points outcome XReach.world reach_xreach history_partial throw_others_kept_partial nothing_copied_no_throw store_throw_partial resize_throw throw_ruins push_back_throw_ruins erase_throw_ruins assign_throw_ruins insert_throw_ruins swap_equal_throw_partial swap_throw_loses_element swap_shorter_throw_partial swap_shorter_throw_ruins nothing_else_partial'),'False of the code: last_ is moved before the elements are made, so every push_back, insert, assign, operator=, growing resize and erase that throws leaves a fixed_vector that counts a slot without object: reading, clear and the destructor are undefined behaviour (throw_ruins for every call of that kind and every point). A swap that throws at the third copy of an exchange loses an element (swap_throw_loses_element) and, in its second phase, ruins the shorter one (swap_shorter_throw_ruins). Proved for all histories: every call returns or throws (outcome), all other fixed_vectors stay as they were and usable, an element assignment or the first point of resize(n) has no effect, and what both fixed_vectors hold after each point of swap.')
c('C137','partial',ns(XV,'ctor_throw_partial ctor_throw_leaks copy_ctor_throw_leaks'),'False of the code: the destructor of an object whose constructor throws is not run, so the elements made before are never destroyed (ctor_throw_leaks, all constructors and points). Proved: all other fixed_vectors are unchanged and the program can go on.')
c('C138','partial',ns('Verif.Exc.XVM','call_points call_outcome VXSteps.vec VXReach.goes_on throw_others_kept reach_xreach find_throw count_absent_throw count_present_throw present_key_strong full_map_strong_partial full_map_leaks insert_throw_ruins insert_never_safe put_throw put_throw_leaves_default erase_throw_ruins'),'False of the code, for the reasons of C128: insert or operator[] of an absent key into a map with room, whose copy of the entry throws, and an erase that throws while it moves entries, leave a map whose destructor, clear and iteration are undefined behaviour (insert_throw_ruins, insert_never_safe, erase_throw_ruins); into a full map, the new block leaks if a copy throws (full_map_leaks). Proved for all histories, also those that go on after a map was ruined: every call returns or throws and leaves what Thrown says; lookups change nothing; calls with a present key and insertions into a full map have no effect when they throw; m[k] = v leaves the map as it was, with (k, T()), or ruined (put_throw); no other map is ever concerned.')
c('C139','proved',ns('Verif.Rb.Container','equal_compares not_equal_compares equal_compares_values'))
c('C140','partial',ns('Verif.Vec.MachProps','machine_reach request_fits_partial request_up_to_max_size_partial storage_enough machine_history_partial construct_too_many_ub construct_n_too_many_ub insert_huge_ignored resize_huge_ignored resize_x_huge_ignored insert_too_many_ub resize_too_many_ub reserve_wraps_ignored reserve_too_many assign_too_many_ub'),'Proved for every modulus, sizeof(T) and placement of blocks: while requests are for at most max_size() elements and a number that a difference_type can count, which is the same if sizeof(T) is 2 or more (and, for reserve, elements_ + n is an address), every call does exactly what it does with natural numbers, so every theorem about vector applies, and storage has capacity() slots. False of the code above max_size(): n * sizeof(T) wraps around, so vector(n), vector(n, x), assign(n, x), insert and resize write outside the storage (_ub theorems); reserve returns without the room it promises; insert(pos, n, x) and resize convert n to a difference_type, so that from half of the range on they silently do nothing; reserve whose elements_ + n wraps around does nothing. Not proved: vectors of one-byte elements with more elements than a difference_type can count (their size() is a difference of pointers that cannot be represented).')
c('C141','partial',ns('Verif.Exc.XVec','push_back_cost_partial push_back_full_cost push_back_total push_back_quadratic reserve_first_partial insert_cost erase_cost'),'False of the code: insert_values allocates exactly size() + n, so every push_back onto a full vector reallocates; n push_backs onto a new vector make n (n + 3) / 2 allocations and copies (push_back_quadratic). Proved: the exact number for every vector and sequence; with room or after reserve one copy per element and no move; the exact cost of insert and erase of one element.')
c('C142','proved',ns('Verif.SVMap.AnyProps','reallocations_logarithmic'),'')
c('C143','partial',ns('Verif.Vec.FV.FMProps','machine_reach count_fits_partial insert_end_any resize_any assign_any construct_any insert_middle_partial machine_fixed_history_partial insert_wraps_ub insert_all_ones_ub insert_beyond_memory_ub'),'Proved for every modulus, sizeof(T), capacity and placement: construction, assign, resize and insertion at the end truncate any count; an insertion before an element does while last_ + n is an address. False of the code beyond that: last_ + n wraps around, the test against the end of the storage fails and elements are made outside the storage (insert_all_ones_ub: insert(pos, size_type(-1), x) before any element; insert_beyond_memory_ub, insert_wraps_ub in general).')
c('C144','partial',ns('Verif.Exc.XList','call_cost relinking_free insertion_cost copy_cost remove_cost merge_cost_partial merge_compares_more'),'Exact counts of allocations-with-copy, comparisons and predicate calls for every legal call on every reachable memory. False of merge, which compares the element behind a moved one with the moved one first: at most 2 m + n - 1 comparisons are proved instead of m + n - 1, and merge_compares_more shows that 2 m - 1 are made whenever all m elements are smaller than the first of the n (more than m + n - 1 for m > n).')
c('C145','proved',ns('Verif.Exc.XFwd','call_cost relinking_free insertion_cost copy_cost')+' '+ns('Verif.Exc.XBwd','call_cost relinking_free insertion_cost copy_cost')+' '+ns('Verif.Exc.XLq','call_cost relinking_free insertion_cost traffic_cost'),'Exact counts for every legal call on every reachable memory; traffic_cost is about every sequence of push_back and pop_front that never pops an empty queue.')
c('C146','proved',ns('Verif.Exc.XFv','call_cost append_cost insert_cost insert_range_cost erase_cost copy_cost fill_cost swap_cost'),'Exact counts for every legal call on every memory that a program with any exceptions in its past reaches.')
c('C147','partial',ns('Verif.Overload','count_selected_iff_partial same_type_selects_range range_selected_iff own_calls_count lazy_ctor_count map_range_insert one_selected Selects.unique'),'Exact characterisation for every system of conversions and all types. False of the code: the templates for ranges are not restricted, so a number and a value of the same type other than size_type (two ints, say) select the range overload; only lazy_queue(n, value) has no such competitor.')
c('C148','proved',ns('Verif.Exc.XRb','lookup_cost insert_cost insert_range_cost erase_cost copy_cost free_cost'),'Costs counts the operations that may throw: element copies with their allocation, comparator calls, == of keys. map::insert(first, last) and operator[] with their temporaries are the subject of C156.')
c('C149','proved',ns('Verif.Exc.XSM','lookup_cost upper_cost insert_cost index_cost copy_cost other_cost'),'Costs counts the operations that may throw: allocations of arrays, pairs with their allocation and copy, comparator calls, == of keys. The temporary make_pair(key, T()) of operator[] counts six: T(), the copy of the key to the parameter, and twice the copies of both. The bounds hold for every comparator; upper_bound needs a strict total order and fewer than 2^32 elements (its scan over equal keys is unbounded otherwise).')
c('C150','partial',ns('Verif.Exc.XVec','call_cost making_cost insertion_cost removal_cost resize_cost reserve_cost_partial assignment_cost_partial assign_range_cost_partial reserve_capacity_moves assignment_reallocates assign_range_quadratic assign_range_not_linear'),'Costs counts allocations and copies of elements (and the temporary T() of resize). call_cost is the exact count of every legal call, the others read it off in terms of size and capacity. Missing because false of the code: reserve(capacity()), assign(capacity(), x) and operator= from a vector of equal capacity allocate although there is room (reserve_capacity_moves, assignment_reallocates), and assign(first, last) does not reserve, so beyond the capacity it allocates for every element and costs quadratically many copies (assign_range_quadratic, assign_range_not_linear).')
c('C151','partial',ns('Verif.Exc.XVM','find_present_cost absent_cost present_cost new_cost erase_key_cost base_cost count_present_no_cost'),'Costs counts == of keys, allocations, copies of entries (a pair is one copy), the four operations of the temporary of operator[] and assignments of values. All parts hold except that count(key) of a present key never returns, whatever number of comparisons it is given (count_present_no_cost).')
c('C152','partial',ns('Verif.Exc.XAlgo','findIf_does findIfNot_does quantifiers_does countIf_does equal4_does equal3_does mismatch4_does adjacentFind_does forEach_does accumulate_does lowerBound_does upperBound_does binarySearch_does equalRange_does fill_does fillN_does generate_does generateN_does iota_does replaceIf_does transform_in_place transform_does transform2_does removeIf_does copy_does copyN_does copyIf_does removeCopyIf_does replaceCopyIf_does reverseCopy_does copyBackward_does merge_does reverse_does swapRanges_does reverse_keeps_partial reverse_loses swapRanges_loses'),'All parts hold except that reverse and swap_ranges lose an element (and have another one twice) if the second assignment of an exchange throws (reverse_loses, swapRanges_loses); reverse_keeps_partial: at every other operation reverse loses none. search, search_n, is_sorted, min_element and the like are the subject of C153. The containers present their elements by the theorems of C117-C119.')
c('C153','proved',ns('Verif.Exc.XAlgo','search_does searchN_does searchNPred_does isSortedUntil_does isSorted_does extrema_does mismatch3_does'),'Comparisons without state. Which run search_n with a predicate finds is the subject of the property on search_n.')
c('C154','partial',ns('Verif.Rb.Edit','write_anything scribbled_calls_return scribbled_members scribbled_no_leak write_in_place_partial edited_calls_return_partial edited_members_partial find_misses_rekeyed'),'The first part holds for all assignments (write_anything, scribbled_*; as with any comparator, except an erase of a key that is followed by one not greater, see C123). The second part holds only for assignments that keep the element greater than those before and less than those behind it (write_in_place_partial, edited_*_partial); in every set with two elements or more there is an element to which a key can be assigned that find then misses (find_misses_rekeyed): operator* of set::iterator should answer a const reference.')
c('C155','proved',ns('Verif.Rb.Steps','one_step_links whole_loop_links clear_depth copy_depth'),'The counting functions (Rb/Steps.lean) are the functions of the model with one more answer; each theorem also states that they answer and leave in memory what the functions of the model do. Assignment is between different containers (self-assignment empties the container, see the property on it).')
c('C156','proved',ns('Verif.Exc.XRb','subscript_outcome putAt_outcome putAt_leaves_key atPut_outcome insertPairs_outcome pairsCtor_outcome subscript_cost insertPairs_cost'),'An assignment of a value that throws is taken to have assigned nothing. The temporary pair counts four operations (pair takes its parameters by value).')
c('C157','proved',ns('Verif.Rb.Container','call_confined calls_apart reads_confined'),'call_confined: the call, run in the memory from which everything outside the named containers has been removed (there every other access is undefined behaviour), returns the same as in the whole memory, and the whole memory afterwards is the small one together with the untouched rest. Belongs says which addresses are part of a container: its header and the positions iteration meets. The allocator is shared and assumed to be safe to call from several threads, the comparator likewise; the memory model has no notion of simultaneous accesses: that threads do not interfere is the conclusion from disjoint sets of accessed nodes.')
c('C158','proved',ns('Verif.Seq.DList','call_confined calls_apart reads_confined')+' '+ns('Verif.Seq.FList','call_confined calls_apart reads_confined')+' '+ns('Verif.Seq.BList','call_confined calls_apart reads_confined')+' '+ns('Verif.Seq.LQueue','call_confined calls_apart reads_confined'),'Confined p h M: p returns in h.part M, where only the cells of M are allocated and every other access is undefined behaviour, with the same result as in h; afterwards the part of h made of M and the new cells is what the small memory became, and every other cell is the Same. Legal calls only: the calls for which the code is wrong are excluded. The allocator is shared and assumed to be safe to call from several threads; simultaneous accesses are not modelled, non-interference is the conclusion from disjoint sets of accessed cells.')
c('C159','proved',ns('Verif.Vec','call_confined calls_apart reads_confined')+' '+ns('Verif.Vec.FV','call_confined calls_apart reads_confined'),'Confined p h O B: p returns in h.part O B, which has only the objects of O and the blocks of B (every other access is undefined behaviour), with the same result as in h; afterwards the part of h made of O, B and what was allocated is what the small memory became, and every other object and block is the same. Legal calls only. A fixed_vector object and its storage have the same identity and end together. The allocator is shared and assumed to be safe to call from several threads; simultaneous accesses are not modelled.')
c('C160','proved',ns('Verif.SVMap','call_confined calls_apart reads_confined')+' '+ns('Verif.VMap','call_confined calls_apart reads_confined'),'Confined as in C159. Legal calls only: the calls for which the code is wrong (sorted_vector_map(1), insertion beyond 2^32 elements) are excluded. The allocator is shared and assumed to be safe to call from several threads; simultaneous accesses are not modelled.')
c('C161','proved',' '.join(ns('Verif.Seq.'+n,'throw_confined throws_apart') for n in ['DList','FList','BList','LQueue']),'Confined as in C158, for the models with exceptions (C126, C127, C131, C132, C134). A lazy_queue that an exception has left out of order (its tail is not its last node) is named by no legal call, as in C134; the others are.')
c('C162','proved',ns('Verif.Vec','throw_confined throws_apart')+' '+ns('Verif.Vec.FV','throw_confined throws_apart'),'Confined as in C159, for the models with exceptions (C128, C135 to C137). A vector that an exception has ruined exists no more in the specified state, so no legal call names it; the theorem holds of the calls on the others.')
c('C163','proved',ns('Verif.Exc.XRb','throw_confined throws_apart'),'As C157 (memory from which everything outside the named containers has been removed), for the model with exceptions of C129. Legal as there: an erase on a container whose last erase threw is not covered (C129 shows that it may lose elements). operator[] of map is not among these calls.')
