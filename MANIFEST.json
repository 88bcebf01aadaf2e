{
 "claims": [
  {
   "property": "C01",
   "status": "proved",
   "theorems": [
    "Verif.Rb.MapApi.map_history",
    "Verif.Rb.MapApi.spec_deterministic",
    "Verif.Rb.Container.calls_return",
    "Verif.Rb.Container.exists_reach",
    "Verif.Rb.Container.exists_reach_257"
   ],
   "note": ""
  },
  {
   "property": "C02",
   "status": "proved",
   "theorems": [
    "Verif.Rb.SetApi.set_history"
   ],
   "note": ""
  },
  {
   "property": "C03",
   "status": "proved",
   "theorems": [
    "Verif.Rb.Container.iteration",
    "Verif.Rb.Container.iteration_covers_memory"
   ],
   "note": ""
  },
  {
   "property": "C04",
   "status": "proved",
   "theorems": [
    "Verif.Rb.Container.depth_logarithmic",
    "Verif.Rb.Container.comparisons_logarithmic"
   ],
   "note": ""
  },
  {
   "property": "C05",
   "status": "proved",
   "theorems": [
    "Verif.Rb.Container.lower_bound_first"
   ],
   "note": ""
  },
  {
   "property": "C06",
   "status": "partial",
   "theorems": [
    "Verif.Rb.Container.upper_bound_first_partial",
    "Verif.Rb.Container.upper_bound_wrong_when_absent",
    "Verif.Rb.Container.upper_bound_counterexample",
    "Verif.Rb.Container.upper_bound_computes",
    "Verif.Rb.Container.rbtree_upper_bound_first"
   ],
   "note": "Proved for rbtree::upper_bound and for map/set::upper_bound of a present key. False of the code for an absent key: map/set skip one element (upper_bound_wrong_when_absent)."
  },
  {
   "property": "C07",
   "status": "proved",
   "theorems": [
    "Verif.Rb.Container.insert_spec"
   ],
   "note": ""
  },
  {
   "property": "C08",
   "status": "proved",
   "theorems": [
    "Verif.Rb.Container.erase_spec"
   ],
   "note": ""
  },
  {
   "property": "C09",
   "status": "proved",
   "theorems": [
    "Verif.Rb.Container.insert_keeps_elements"
   ],
   "note": ""
  },
  {
   "property": "C10",
   "status": "proved",
   "theorems": [
    "Verif.Rb.Container.copy_is_deep",
    "Verif.Rb.Container.assign_is_deep",
    "Verif.Rb.Container.independent"
   ],
   "note": ""
  },
  {
   "property": "C11",
   "status": "partial",
   "theorems": [
    "Verif.Rb.Container.self_assign_empties",
    "Verif.Rb.Container.self_assign_keeps_empty_partial",
    "Verif.Rb.Container.self_assign_counterexample"
   ],
   "note": "False of the code: operator= clears first, so every non-empty container is emptied by self-assignment (self_assign_empties)."
  },
  {
   "property": "C12",
   "status": "proved",
   "theorems": [
    "Verif.Rb.Multi.insert_equal_stable",
    "Verif.Rb.Multi.multi_iteration",
    "Verif.Rb.Multi.multi_bounds"
   ],
   "note": ""
  },
  {
   "property": "C13",
   "status": "partial",
   "theorems": [
    "Verif.Rb.Multi.count_bounds_partial",
    "Verif.Rb.Multi.count_wrong_for_many",
    "Verif.Rb.Multi.count_unique_partial",
    "Verif.Rb.Multi.count_counterexample"
   ],
   "note": "False of the code: with three equal elements count answers 2 (count_counterexample), and it is too small for every group of more than 2 log2(n+1) equal elements (count_wrong_for_many). Proved: exact for unique keys; never more than the real number, never more than 2 log2(n+1), and positive iff present."
  },
  {
   "property": "C14",
   "status": "proved",
   "theorems": [
    "Verif.Rb.Container.iterators_inverse"
   ],
   "note": ""
  },
  {
   "property": "C15",
   "status": "proved",
   "theorems": [
    "Verif.Rb.Container.clear_frees_exactly",
    "Verif.Rb.Container.destroy_frees_exactly",
    "Verif.Rb.Container.no_leak"
   ],
   "note": ""
  },
  {
   "property": "C16",
   "status": "proved",
   "theorems": [
    "Verif.Rb.Container.erase_frees_exactly"
   ],
   "note": ""
  },
  {
   "property": "C17",
   "status": "proved",
   "theorems": [
    "Verif.Seq.ListProps.list_history",
    "Verif.Seq.ListProps.new_list_history",
    "Verif.Seq.ListProps.call_returns"
   ],
   "note": ""
  },
  {
   "property": "C18",
   "status": "proved",
   "theorems": [
    "Verif.Seq.ListProps.backward_mirrors_forward"
   ],
   "note": ""
  },
  {
   "property": "C19",
   "status": "proved",
   "theorems": [
    "Verif.Seq.ListProps.insert_range_inserts",
    "Verif.Seq.ListProps.insert_n_inserts",
    "Verif.Seq.ListProps.insert_list_inserts",
    "Verif.Seq.ListProps.insert_returns_new"
   ],
   "note": ""
  },
  {
   "property": "C20",
   "status": "partial",
   "theorems": [
    "Verif.Seq.ListProps.erase_removes",
    "Verif.Seq.ListProps.erase_range_partial",
    "Verif.Seq.ListProps.erase_range_wrong",
    "Verif.Seq.ListProps.erase_empty_range_ub"
   ],
   "note": "Proved for erase(pos). erase(first,last) as written leaves the last element of the range in the list (erase_range_wrong) and erase(p,p) is undefined behaviour (erase_empty_range_ub); erase_range_partial says exactly what it does."
  },
  {
   "property": "C21",
   "status": "partial",
   "theorems": [
    "Verif.Seq.ListProps.clear_partial",
    "Verif.Seq.ListProps.use_after_clear_ub"
   ],
   "note": "Proved: frees each node once, begin()==end(), empty(). Not usable again: head_.prev dangles, so the next push/insert is use after free (use_after_clear_ub)."
  },
  {
   "property": "C22",
   "status": "proved",
   "theorems": [
    "Verif.Seq.ListProps.reverse_reverses"
   ],
   "note": ""
  },
  {
   "property": "C23",
   "status": "partial",
   "theorems": [
    "Verif.Seq.ListProps.remove_if_removes",
    "Verif.Seq.ListProps.remove_removes_partial",
    "Verif.Seq.ListProps.remove_own_element_ub"
   ],
   "note": "Proved for remove_if and for remove(v) when v is not a reference to an element of the list; remove(l.front()) and the like read the freed element (remove_own_element_ub)."
  },
  {
   "property": "C24",
   "status": "proved",
   "theorems": [
    "Verif.Seq.ListProps.unique_keeps_first_of_runs"
   ],
   "note": ""
  },
  {
   "property": "C25",
   "status": "proved",
   "theorems": [
    "Verif.Seq.ListProps.merge_merges"
   ],
   "note": ""
  },
  {
   "property": "C26",
   "status": "partial",
   "theorems": [
    "Verif.Seq.ListProps.splice_moves_partial",
    "Verif.Seq.ListProps.splice_within_partial",
    "Verif.Seq.ListProps.splice_all_moves_partial",
    "Verif.Seq.ListProps.splice_one_moves",
    "Verif.Seq.ListProps.splice_empty_range_breaks",
    "Verif.Seq.ListProps.splice_all_empty_breaks",
    "Verif.Seq.ListProps.splice_to_own_end_loses"
   ],
   "note": "Proved for non-empty ranges/lists and positions outside the range. Empty ranges and lists corrupt the links, and splicing to the position equal to last loses the elements (negative theorems)."
  },
  {
   "property": "C27",
   "status": "partial",
   "theorems": [
    "Verif.Seq.ListProps.swap_exchanges_partial",
    "Verif.Seq.ListProps.swap_empty_breaks"
   ],
   "note": "Proved unless both lists are empty; swapping two empty lists links each header to the other (swap_empty_breaks)."
  },
  {
   "property": "C28",
   "status": "partial",
   "theorems": [
    "Verif.Seq.ListProps.resize_resizes_partial",
    "Verif.Seq.ListProps.resize_zero_keeps"
   ],
   "note": "Proved for n > 0; resize(0) does nothing (resize_zero_keeps)."
  },
  {
   "property": "C29",
   "status": "proved",
   "theorems": [
    "Verif.Seq.FwdProps.list_history",
    "Verif.Seq.FwdProps.new_list_history",
    "Verif.Seq.FwdProps.call_returns",
    "Verif.Seq.FwdProps.insert_after_returns_new",
    "Verif.Seq.FwdProps.erase_after_removes",
    "Verif.Seq.FwdProps.insert_n_own_element"
   ],
   "note": ""
  },
  {
   "property": "C30",
   "status": "partial",
   "theorems": [
    "Verif.Seq.FwdProps.splice_moves_partial",
    "Verif.Seq.FwdProps.splice_within_before_partial",
    "Verif.Seq.FwdProps.splice_within_behind_partial",
    "Verif.Seq.FwdProps.splice_all_moves_partial",
    "Verif.Seq.FwdProps.splice_one_moves",
    "Verif.Seq.FwdProps.splice_one_within_partial",
    "Verif.Seq.FwdProps.splice_all_empty_loses",
    "Verif.Seq.FwdProps.splice_empty_range_shares",
    "Verif.Seq.FwdProps.splice_one_behind_itself_loses",
    "Verif.Seq.FwdProps.splice_to_own_start_loses"
   ],
   "note": "Proved for non-empty ranges and lists, and positions outside the moved range. Splicing an empty list drops the rest of the destination, an empty range makes two lists share nodes, and moving elements to where they are loses them (negative theorems, for all lists)."
  },
  {
   "property": "C31",
   "status": "proved",
   "theorems": [
    "Verif.Seq.FwdProps.reverse_reverses"
   ],
   "note": ""
  },
  {
   "property": "C32",
   "status": "partial",
   "theorems": [
    "Verif.Seq.BwdProps.list_history_partial",
    "Verif.Seq.BwdProps.new_list_history_partial",
    "Verif.Seq.BwdProps.contents_history_partial",
    "Verif.Seq.BwdProps.call_returns",
    "Verif.Seq.BwdProps.insert_after_returns_new",
    "Verif.Seq.BwdProps.erase_after_removes",
    "Verif.Seq.BwdProps.insert_n_own_element",
    "Verif.Seq.BwdProps.clear_restores",
    "Verif.Seq.BwdProps.reverse_reverses_partial",
    "Verif.Seq.BwdProps.insert_range_at_end_loses_end",
    "Verif.Seq.BwdProps.pop_last_element_breaks",
    "Verif.Seq.BwdProps.reverse_empty_breaks"
   ],
   "note": "Proved for every history that does not pop the only element, insert or assign a non-empty range at the end, or reverse an empty list; and for the contents (not back/empty) of every history without push_back. In the excluded cases the code leaves tail_ wrong: negative theorems, for all lists."
  },
  {
   "property": "C33",
   "status": "proved",
   "theorems": [
    "Verif.Seq.LazyProps.queue_history",
    "Verif.Seq.LazyProps.new_queue_history",
    "Verif.Seq.LazyProps.fifo",
    "Verif.Seq.LazyProps.pop_then_push_reuses",
    "Verif.Seq.LazyProps.call_returns",
    "Verif.Seq.LazyProps.insert_after_returns_new",
    "Verif.Seq.LazyProps.erase_after_removes",
    "Verif.Seq.LazyProps.insert_n_own_element",
    "Verif.Seq.LazyProps.roll_head_rolls",
    "Verif.Seq.LazyProps.roll_head_empty"
   ],
   "note": ""
  },
  {
   "property": "C34",
   "status": "partial",
   "theorems": [
    "Verif.Seq.LazyProps.cleanup_frees_partial",
    "Verif.Seq.LazyProps.destroy_frees_partial",
    "Verif.Seq.LazyProps.cleanup_double_destroys",
    "Verif.Seq.LazyProps.destroy_double_destroys",
    "Verif.Seq.LazyProps.push_pop_destroy_ub",
    "Verif.Seq.LazyProps.clear_destroy_ub"
   ],
   "note": "Proved for types with a trivial destructor, and for queues that keep no node for reuse. Otherwise cleanup() and the destructor delete pooled nodes whose value put_node has destroyed already: every value in the pool is destroyed twice (negative theorems for every reachable queue with a pooled node)."
  },
  {
   "property": "C35",
   "status": "proved",
   "theorems": [
    "Verif.Vec.VecProps.vector_history",
    "Verif.Vec.VecProps.new_vector_history",
    "Verif.Vec.VecProps.call_returns"
   ],
   "note": ""
  },
  {
   "property": "C36",
   "status": "partial",
   "theorems": [
    "Verif.Vec.VecProps.slots_exactly",
    "Verif.Vec.VecProps.nothing_else",
    "Verif.Vec.VecProps.blocks_disjoint",
    "Verif.Vec.VecProps.destroy_releases",
    "Verif.Vec.VecProps.destroyed_all",
    "Verif.Vec.VecProps.vector_life",
    "Verif.Vec.VecProps.call_returns",
    "Verif.Vec.VecProps.erase_empty_range_ub",
    "Verif.Vec.VecProps.insert_own_element_ub",
    "Verif.Vec.VecProps.assign_n_own_element_ub",
    "Verif.Vec.VecProps.assign_own_range_ub"
   ],
   "note": "Proved for every history of calls that are Legal (arguments before the insertion point or outside the vector, non-empty erased ranges). The remaining calls break lifetimes in the code: erase(p, p), insert of an own element within capacity, assign from own elements (negative theorems, for all vectors)."
  },
  {
   "property": "C37",
   "status": "partial",
   "theorems": [
    "Verif.Vec.VecProps.erase_empty_range_partial",
    "Verif.Vec.VecProps.erase_empty_range_ub"
   ],
   "note": "True only at end(). For every position that designates an element, erase(p, p) constructs the element on top of itself and destroys it: undefined behaviour (erase_empty_range_ub, all vectors)."
  },
  {
   "property": "C38",
   "status": "partial",
   "theorems": [
    "Verif.Vec.VecProps.push_back_element",
    "Verif.Vec.VecProps.insert_element_partial",
    "Verif.Vec.VecProps.insert_own_element_ub",
    "Verif.Vec.VecProps.insert_own_element_wrong",
    "Verif.Vec.VecProps.insert_own_range_ub"
   ],
   "note": "push_back is always right; insert is right for elements before the insertion point, at the end, or when it reallocates. Otherwise it reads a destroyed element or inserts v[a-n] (negative theorems, for all vectors)."
  },
  {
   "property": "C39",
   "status": "proved",
   "theorems": [
    "Verif.Vec.VecProps.reserve_contract",
    "Verif.Vec.VecProps.fits_no_reallocation",
    "Verif.Vec.VecProps.reserve_then",
    "Verif.Vec.VecProps.insert_keeps_before",
    "Verif.Vec.VecProps.reserve_capacity_moves"
   ],
   "note": ""
  },
  {
   "property": "C40",
   "status": "partial",
   "theorems": [
    "Verif.Vec.FV.FVProps.slots_exactly",
    "Verif.Vec.FV.FVProps.nothing_else",
    "Verif.Vec.FV.FVProps.destroy_releases",
    "Verif.Vec.FV.FVProps.destroyed_all",
    "Verif.Vec.FV.FVProps.fixed_vector_life",
    "Verif.Vec.FV.FVProps.call_returns",
    "Verif.Vec.FV.FVProps.swap_longer_ub",
    "Verif.Vec.FV.FVProps.erase_empty_range_ub",
    "Verif.Vec.FV.FVProps.insert_own_element_ub",
    "Verif.Vec.FV.FVProps.assign_n_own_element_ub",
    "Verif.Vec.FV.FVProps.assign_own_range_ub"
   ],
   "note": "Proved for every history of legal calls. The remaining calls access slots without an object: swap with a shorter fixed_vector, erase(p, p), insert/assign of own elements (negative theorems, for all fixed vectors)."
  },
  {
   "property": "C41",
   "status": "proved",
   "theorems": [
    "Verif.Vec.FV.FVProps.fixed_vector_history",
    "Verif.Vec.FV.FVProps.new_fixed_vector_history",
    "Verif.Vec.FV.FVProps.push_back_truncates",
    "Verif.Vec.FV.FVProps.insert_truncates",
    "Verif.Vec.FV.FVProps.insert_range_truncates",
    "Verif.Vec.FV.FVProps.call_returns"
   ],
   "note": ""
  },
  {
   "property": "C42",
   "status": "partial",
   "theorems": [
    "Verif.Vec.FV.FVProps.swap_exchanges_partial",
    "Verif.Vec.FV.FVProps.swap_longer_ub"
   ],
   "note": "True if this->size() <= x.size(); otherwise it is undefined behaviour (swap_longer_ub, all fixed vectors)."
  },
  {
   "property": "C43",
   "status": "partial",
   "theorems": [
    "Verif.SVMap.SMProps.reach_observes",
    "Verif.SVMap.SMProps.dictionary_history_partial",
    "Verif.SVMap.SMProps.new_dictionary_history_partial",
    "Verif.SVMap.SMProps.search_wraps",
    "Verif.SVMap.SMProps.every_size",
    "Verif.SVMap.SMProps.find_misses_present"
   ],
   "note": "Proved for histories that stay within 2^32 elements. bsearch keeps the size in an unsigned: a map with 2^32 elements (every_size: such maps are reachable) looks empty to it, find misses every key and insert adds present keys again (search_wraps, find_misses_present)."
  },
  {
   "property": "C44",
   "status": "partial",
   "theorems": [
    "Verif.SVMap.SMProps.call_returns",
    "Verif.SVMap.SMProps.nothing_else",
    "Verif.SVMap.SMProps.destroyed_all",
    "Verif.SVMap.SMProps.destroy_releases",
    "Verif.SVMap.SMProps.map_life_partial",
    "Verif.SVMap.SMProps.capacity_one_overflows"
   ],
   "note": "Proved for every history without sorted_vector_map(1). A map constructed with room for one element never grows: the second insertion writes out of bounds (capacity_one_overflows, from every reachable memory)."
  },
  {
   "property": "C45",
   "status": "partial",
   "theorems": [
    "Verif.SVMap.SMProps.count_inverted"
   ],
   "note": "The code computes the negation for every map and key (count_inverted)."
  },
  {
   "property": "C46",
   "status": "partial",
   "theorems": [
    "Verif.VMap.VMProps.find_finds",
    "Verif.VMap.VMProps.vcall_returns",
    "Verif.VMap.VMProps.at_absent_ub",
    "Verif.VMap.VMProps.count_absent_partial",
    "Verif.VMap.VMProps.count_present_diverges"
   ],
   "note": "find and at are right for every reachable map, also with repeated keys. count returns 0 for an absent key, but never returns for a present one: find_key(i, key) returns i again (count_present_diverges, all maps). at of an absent key is undefined behaviour (at_absent_ub)."
  },
  {
   "property": "C47",
   "status": "proved",
   "theorems": [
    "Verif.Bitset.test_reports",
    "Verif.Bitset.set_sets_one_bit",
    "Verif.Bitset.reset_clears_one_bit",
    "Verif.Bitset.flip_flips_one_bit"
   ],
   "note": ""
  },
  {
   "property": "C48",
   "status": "partial",
   "theorems": [
    "Verif.Bitset.set_value_assigns_partial",
    "Verif.Bitset.set_value_ors",
    "Verif.Bitset.set_false_does_nothing",
    "Verif.Bitset.set_value_assigns_false"
   ],
   "note": "False of the code for value=false: set(pos,false) is a no-op. Proved for value=true; exact effect and refutation proved."
  },
  {
   "property": "C49",
   "status": "partial",
   "theorems": [
    "Verif.Bitset.ref_assign_bool",
    "Verif.Bitset.ref_get",
    "Verif.Bitset.ref_not",
    "Verif.Bitset.ref_flip",
    "Verif.Bitset.ref_assign_ref_effect",
    "Verif.Bitset.ref_assign_ref_partial",
    "Verif.Bitset.ref_assign_ref_false"
   ],
   "note": "Proved for b[i]=bool, ~b[i], b[i].flip(), conversion. False of the code for b[i]=b[j] (clears the rest of the slot); exact effect and refutation proved."
  },
  {
   "property": "C50",
   "status": "proved",
   "theorems": [
    "Verif.Bitset.set_all_pointwise",
    "Verif.Bitset.reset_all_pointwise",
    "Verif.Bitset.flip_all_pointwise",
    "Verif.Bitset.complement_pointwise",
    "Verif.Bitset.and_assign_pointwise",
    "Verif.Bitset.or_assign_pointwise",
    "Verif.Bitset.xor_assign_pointwise",
    "Verif.Bitset.assign_copies"
   ],
   "note": ""
  },
  {
   "property": "C51",
   "status": "proved",
   "theorems": [
    "Verif.Bitset.shl_shifts",
    "Verif.Bitset.shr_shifts",
    "Verif.Bitset.shl_assign_shifts",
    "Verif.Bitset.shr_assign_shifts"
   ],
   "note": ""
  },
  {
   "property": "C52",
   "status": "proved",
   "theorems": [
    "Verif.Bitset.all_iff",
    "Verif.Bitset.any_iff",
    "Verif.Bitset.none_iff",
    "Verif.Bitset.eq_iff",
    "Verif.Bitset.count_counts",
    "Verif.Bitset.to_ulong_low_bits",
    "Verif.Bitset.kernighan_popcount",
    "Verif.Bitset.all_zero_false"
   ],
   "note": "all() for N=0 answers false (all_zero_false)."
  },
  {
   "property": "C53",
   "status": "partial",
   "theorems": [
    "Verif.Bitset.assign_width_preserves_partial",
    "Verif.Bitset.assign_width_effect",
    "Verif.Bitset.assign_width_preserves_false"
   ],
   "note": "False of the code when widening a bitset whose padding bits are set, e.g. after set() or flip(); exact effect proved."
  },
  {
   "property": "C54",
   "status": "partial",
   "theorems": [
    "Verif.Bitset.from_ulong_bits",
    "Verif.Bitset.from_ulong_zero_oob",
    "Verif.Bitset.from_string_bits_partial",
    "Verif.Bitset.from_string_overflow"
   ],
   "note": "Integers: proved for N>0; bitset<0>(v) writes out of bounds. Strings: proved when the digits fit the storage; every longer string writes out of bounds (from_string_overflow)."
  },
  {
   "property": "C55",
   "status": "proved",
   "theorems": [
    "Verif.Algo.find_if_returns_first_match",
    "Verif.Algo.find_returns_first_match",
    "Verif.Algo.find_if_not_returns_first_mismatch"
   ],
   "note": ""
  },
  {
   "property": "C56",
   "status": "proved",
   "theorems": [
    "Verif.Algo.all_of_iff",
    "Verif.Algo.any_of_iff",
    "Verif.Algo.none_of_iff"
   ],
   "note": ""
  },
  {
   "property": "C57",
   "status": "proved",
   "theorems": [
    "Verif.Algo.count_if_counts",
    "Verif.Algo.count_counts",
    "Verif.Algo.count_if_overflow"
   ],
   "note": "The count is an int; more than 2^31-1 matches overflow (count_if_overflow)."
  },
  {
   "property": "C58",
   "status": "proved",
   "theorems": [
    "Verif.Algo.search_returns_first_occurrence"
   ],
   "note": ""
  },
  {
   "property": "C59",
   "status": "partial",
   "theorems": [
    "Verif.Algo.search_n_returns_first_run",
    "Verif.Algo.search_n_pred_returns_first_run_partial",
    "Verif.Algo.search_n_pred_wrong"
   ],
   "note": "Proved for operator==. The predicate overload looks for the first element with == and is wrong for other predicates (search_n_pred_wrong); proved when the predicate is implied by equality of the first element."
  },
  {
   "property": "C60",
   "status": "proved",
   "theorems": [
    "Verif.Algo.adjacent_find_returns_first"
   ],
   "note": ""
  },
  {
   "property": "C61",
   "status": "proved",
   "theorems": [
    "Verif.Algo.equal3_iff",
    "Verif.Algo.equal4_iff",
    "Verif.Algo.equal4_eq_iff",
    "Verif.Algo.mismatch3_returns_first_difference",
    "Verif.Algo.mismatch4_returns_first_difference"
   ],
   "note": ""
  },
  {
   "property": "C62",
   "status": "proved",
   "theorems": [
    "Verif.Algo.copy_copies",
    "Verif.Algo.copy_n_copies",
    "Verif.Algo.copy_n_nonpositive",
    "Verif.Algo.copy_if_copies",
    "Verif.Algo.copy_backward_copies"
   ],
   "note": ""
  },
  {
   "property": "C63",
   "status": "proved",
   "theorems": [
    "Verif.Algo.remove_copy_if_copies",
    "Verif.Algo.remove_copy_copies",
    "Verif.Algo.remove_if_compacts",
    "Verif.Algo.remove_compacts"
   ],
   "note": ""
  },
  {
   "property": "C64",
   "status": "proved",
   "theorems": [
    "Verif.Algo.fill_fills",
    "Verif.Algo.fill_n_fills",
    "Verif.Algo.fill_n_nonpositive",
    "Verif.Algo.generate_writes_successive_values",
    "Verif.Algo.generate_n_writes_successive_values",
    "Verif.Algo.replace_if_maps",
    "Verif.Algo.replace_maps",
    "Verif.Algo.replace_copy_if_maps",
    "Verif.Algo.replace_copy_maps",
    "Verif.Algo.transform_maps",
    "Verif.Algo.transform2_zips",
    "Verif.Algo.iota_writes_successors"
   ],
   "note": ""
  },
  {
   "property": "C65",
   "status": "proved",
   "theorems": [
    "Verif.Algo.reverse_reverses",
    "Verif.Algo.reverse_copy_reverses"
   ],
   "note": ""
  },
  {
   "property": "C66",
   "status": "proved",
   "theorems": [
    "Verif.Algo.swap_ranges_exchanges"
   ],
   "note": ""
  },
  {
   "property": "C67",
   "status": "proved",
   "theorems": [
    "Verif.Algo.lower_bound_partition_point",
    "Verif.Algo.upper_bound_partition_point",
    "Verif.Algo.lower_bound_sorted",
    "Verif.Algo.upper_bound_sorted",
    "Verif.Algo.equal_range_sorted",
    "Verif.Algo.binary_search_sorted",
    "Verif.Algo.lower_bound_wrong_at_2_31"
   ],
   "note": "Proved for ranges shorter than 2^31 elements; the distance is kept in an int, and 2^31 elements already break it (lower_bound_wrong_at_2_31)."
  },
  {
   "property": "C68",
   "status": "proved",
   "theorems": [
    "Verif.Algo.is_sorted_until_returns_first_descent",
    "Verif.Algo.is_sorted_iff"
   ],
   "note": ""
  },
  {
   "property": "C69",
   "status": "proved",
   "theorems": [
    "Verif.Algo.merge_writes",
    "Verif.Algo.merge_sorted_stable"
   ],
   "note": ""
  },
  {
   "property": "C70",
   "status": "proved",
   "theorems": [
    "Verif.Algo.min_element_returns_first_min",
    "Verif.Algo.max_element_returns_first_max",
    "Verif.Algo.minmax_element_returns_extrema"
   ],
   "note": ""
  },
  {
   "property": "C71",
   "status": "proved",
   "theorems": [
    "Verif.Algo.min_is_minimum",
    "Verif.Algo.max_is_maximum",
    "Verif.Algo.minmax_orders",
    "Verif.Algo.min_tie_returns_second"
   ],
   "note": ""
  },
  {
   "property": "C72",
   "status": "partial",
   "theorems": [
    "Verif.Seq.ListProps.copy_copies",
    "Verif.Seq.ListProps.assign_copies_partial",
    "Verif.Seq.ListProps.construct_from_range",
    "Verif.Seq.ListProps.construct_n",
    "Verif.Seq.ListProps.assign_range_partial",
    "Verif.Seq.ListProps.assign_n_partial",
    "Verif.Seq.ListProps.assign_nonempty_ub",
    "Verif.Seq.ListProps.assign_range_nonempty_ub",
    "Verif.Seq.ListProps.assign_n_nonempty_ub",
    "Verif.Seq.ListProps.assign_nothing",
    "Verif.Seq.ListProps.self_assign_empties"
   ],
   "note": "Proved for the constructors and for assignment to an empty list from another one. Assigning to a non-empty list is undefined behaviour (clear leaves head_.prev dangling), self-assignment empties the list."
  },
  {
   "property": "C73",
   "status": "proved",
   "theorems": [
    "Verif.Seq.ListProps.equal_compares",
    "Verif.Seq.ListProps.not_equal_compares",
    "Verif.Seq.ListProps.equal_compares_values"
   ],
   "note": ""
  },
  {
   "property": "C74",
   "status": "proved",
   "theorems": [
    "Verif.Seq.ListProps.no_leak",
    "Verif.Seq.ListProps.lists_disjoint",
    "Verif.Seq.ListProps.destroy_frees"
   ],
   "note": ""
  },
  {
   "property": "C75",
   "status": "proved",
   "theorems": [
    "Verif.Seq.ListProps.elements_stay",
    "Verif.Seq.ListProps.elements_stay_or_go"
   ],
   "note": ""
  },
  {
   "property": "C76",
   "status": "partial",
   "theorems": [
    "Verif.Seq.FwdProps.copy_copies",
    "Verif.Seq.FwdProps.assign_copies_partial",
    "Verif.Seq.FwdProps.construct_from_range",
    "Verif.Seq.FwdProps.construct_n",
    "Verif.Seq.FwdProps.assign_n_partial",
    "Verif.Seq.FwdProps.self_assign_empties",
    "Verif.Seq.FwdProps.assign_n_own_element_ub"
   ],
   "note": "Proved except for two aliasing cases where the code is wrong: self-assignment empties the list, and assign(n, v) with an own element v reads the destroyed element."
  },
  {
   "property": "C77",
   "status": "proved",
   "theorems": [
    "Verif.Seq.FwdProps.equal_compares",
    "Verif.Seq.FwdProps.not_equal_compares",
    "Verif.Seq.FwdProps.equal_compares_values"
   ],
   "note": ""
  },
  {
   "property": "C78",
   "status": "proved",
   "theorems": [
    "Verif.Seq.FwdProps.no_leak",
    "Verif.Seq.FwdProps.lists_disjoint",
    "Verif.Seq.FwdProps.destroy_frees",
    "Verif.Seq.FwdProps.elements_stay",
    "Verif.Seq.FwdProps.elements_stay_or_go"
   ],
   "note": ""
  },
  {
   "property": "C79",
   "status": "proved",
   "theorems": [
    "Verif.Seq.FwdProps.swap_swaps",
    "Verif.Seq.FwdProps.swap_self"
   ],
   "note": ""
  },
  {
   "property": "C80",
   "status": "proved",
   "theorems": [
    "Verif.Algo.for_each_applies_in_order",
    "Verif.Algo.accumulate_folds"
   ],
   "note": ""
  },
  {
   "property": "C81",
   "status": "partial",
   "theorems": [
    "Verif.Seq.BwdProps.construct_empty",
    "Verif.Seq.BwdProps.construct_n",
    "Verif.Seq.BwdProps.assign_n_partial",
    "Verif.Seq.BwdProps.copy_loses_end",
    "Verif.Seq.BwdProps.construct_from_range_loses_end",
    "Verif.Seq.BwdProps.assign_loses_end",
    "Verif.Seq.BwdProps.assign_range_loses_end",
    "Verif.Seq.BwdProps.self_assign_empties",
    "Verif.Seq.BwdProps.assign_n_own_element_ub"
   ],
   "note": "The contents are always right for distinct lists (first parts of the *_loses_end theorems), and everything is right for (n, v). After copying a range or a list empty() is true and push_back prepends; self-assignment empties; assign(n, own element) is undefined behaviour."
  },
  {
   "property": "C82",
   "status": "proved",
   "theorems": [
    "Verif.Seq.BwdProps.equal_compares",
    "Verif.Seq.BwdProps.not_equal_compares",
    "Verif.Seq.BwdProps.equal_compares_values"
   ],
   "note": ""
  },
  {
   "property": "C83",
   "status": "proved",
   "theorems": [
    "Verif.Seq.BwdProps.no_leak",
    "Verif.Seq.BwdProps.lists_disjoint",
    "Verif.Seq.BwdProps.destroy_frees",
    "Verif.Seq.BwdProps.elements_stay",
    "Verif.Seq.BwdProps.elements_stay_or_go"
   ],
   "note": ""
  },
  {
   "property": "C84",
   "status": "partial",
   "theorems": [
    "Verif.Seq.BwdProps.swap_contents",
    "Verif.Seq.BwdProps.swap_swaps_partial",
    "Verif.Seq.BwdProps.swap_self",
    "Verif.Seq.BwdProps.swap_with_empty_breaks"
   ],
   "note": "Contents are always exchanged; both lists stay usable if both are non-empty. Swapping with an empty list leaves the emptied one with before_end() inside the other list (swap_with_empty_breaks)."
  },
  {
   "property": "C85",
   "status": "proved",
   "theorems": [
    "Verif.Seq.LazyProps.memory_high_water",
    "Verif.Seq.LazyProps.steady_state",
    "Verif.Seq.LazyProps.no_leak",
    "Verif.Seq.LazyProps.queues_disjoint"
   ],
   "note": ""
  },
  {
   "property": "C86",
   "status": "partial",
   "theorems": [
    "Verif.Seq.LazyProps.copy_copies",
    "Verif.Seq.LazyProps.construct_n",
    "Verif.Seq.LazyProps.assign_copies_partial",
    "Verif.Seq.LazyProps.self_assign_empties"
   ],
   "note": "Proved for the constructors and for assignment between different queues. Self-assignment empties the queue (self_assign_empties)."
  },
  {
   "property": "C87",
   "status": "partial",
   "theorems": [
    "Verif.Seq.LazyProps.swap_swaps_partial",
    "Verif.Seq.LazyProps.swap_self",
    "Verif.Seq.LazyProps.swap_with_empty_breaks"
   ],
   "note": "Proved for two non-empty queues. After a swap with an empty queue the emptied one keeps before_end() inside the other queue and its push_back inserts there (swap_with_empty_breaks)."
  },
  {
   "property": "C88",
   "status": "proved",
   "theorems": [
    "Verif.Seq.LazyProps.elements_stay",
    "Verif.Seq.LazyProps.roll_head_rolls"
   ],
   "note": ""
  },
  {
   "property": "C89",
   "status": "partial",
   "theorems": [
    "Verif.Vec.VecProps.copy_copies",
    "Verif.Vec.VecProps.construct_default",
    "Verif.Vec.VecProps.construct_n",
    "Verif.Vec.VecProps.construct_from_values",
    "Verif.Vec.VecProps.construct_from_range",
    "Verif.Vec.VecProps.assign_copies_partial",
    "Verif.Vec.VecProps.assign_n_partial",
    "Verif.Vec.VecProps.assign_range_partial",
    "Verif.Vec.VecProps.self_assign_empties",
    "Verif.Vec.VecProps.assign_n_own_element_ub",
    "Verif.Vec.VecProps.assign_own_range_ub"
   ],
   "note": "Proved except for aliasing: self-assignment empties the vector, assign(n, own element) and assign(own range) read destroyed elements (negative theorems)."
  },
  {
   "property": "C90",
   "status": "proved",
   "theorems": [
    "Verif.Vec.VecProps.swap_swaps"
   ],
   "note": ""
  },
  {
   "property": "C91",
   "status": "proved",
   "theorems": [
    "Verif.Vec.VecProps.equal_compares",
    "Verif.Vec.VecProps.equal_iff_same"
   ],
   "note": ""
  },
  {
   "property": "C92",
   "status": "proved",
   "theorems": [
    "Verif.Vec.VecProps.insert_returns_new",
    "Verif.Vec.VecProps.insert_one_returns_new",
    "Verif.Vec.VecProps.insert_values_returns_new",
    "Verif.Vec.VecProps.insert_range_returns_new",
    "Verif.Vec.VecProps.insert_element_partial",
    "Verif.Vec.VecProps.erase_returns_next",
    "Verif.Vec.VecProps.erase_one_returns_next"
   ],
   "note": ""
  },
  {
   "property": "C93",
   "status": "proved",
   "theorems": [
    "Verif.Vec.VecProps.independent"
   ],
   "note": ""
  },
  {
   "property": "C94",
   "status": "partial",
   "theorems": [
    "Verif.Vec.FV.FVProps.erase_returns_next",
    "Verif.Vec.FV.FVProps.erase_empty_range_partial",
    "Verif.Vec.FV.FVProps.erase_empty_range_ub",
    "Verif.Vec.FV.FVProps.push_back_element",
    "Verif.Vec.FV.FVProps.insert_element_partial",
    "Verif.Vec.FV.FVProps.insert_own_element_ub",
    "Verif.Vec.FV.FVProps.insert_own_element_wrong"
   ],
   "note": "push_back is always right, insert is right for elements before the insertion point or insertion at the end. erase(p, p) and insert of own elements behind the insertion point are wrong in the code (negative theorems)."
  },
  {
   "property": "C95",
   "status": "partial",
   "theorems": [
    "Verif.Vec.FV.FVProps.copy_copies",
    "Verif.Vec.FV.FVProps.construct_default",
    "Verif.Vec.FV.FVProps.construct_n",
    "Verif.Vec.FV.FVProps.construct_from_values",
    "Verif.Vec.FV.FVProps.construct_from_range",
    "Verif.Vec.FV.FVProps.assign_copies_partial",
    "Verif.Vec.FV.FVProps.assign_n_partial",
    "Verif.Vec.FV.FVProps.assign_range_partial",
    "Verif.Vec.FV.FVProps.self_assign_empties",
    "Verif.Vec.FV.FVProps.assign_n_own_element_ub",
    "Verif.Vec.FV.FVProps.assign_own_range_ub"
   ],
   "note": "Proved except for aliasing: self-assignment empties, assign from own elements reads destroyed elements (negative theorems)."
  },
  {
   "property": "C96",
   "status": "proved",
   "theorems": [
    "Verif.Vec.FV.FVProps.equal_compares"
   ],
   "note": ""
  },
  {
   "property": "C97",
   "status": "proved",
   "theorems": [
    "Verif.Vec.FV.FVProps.independent"
   ],
   "note": ""
  },
  {
   "property": "C98",
   "status": "partial",
   "theorems": [
    "Verif.SVMap.SMProps.reach_observes",
    "Verif.SVMap.SMProps.at_absent_ub",
    "Verif.SVMap.SMProps.count_inverted"
   ],
   "note": "reach_observes gives Observes, whose Searches part states every search function; equal_range of an absent key is the empty range at end(), not at the lower bound. at of an absent key is undefined behaviour (at_absent_ub)."
  },
  {
   "property": "C99",
   "status": "proved",
   "theorems": [
    "Verif.SVMap.SMProps.insert_new",
    "Verif.SVMap.SMProps.insert_present",
    "Verif.SVMap.SMProps.index_refers"
   ],
   "note": ""
  },
  {
   "property": "C100",
   "status": "proved",
   "theorems": [
    "Verif.SVMap.SMProps.references_stable"
   ],
   "note": ""
  },
  {
   "property": "C101",
   "status": "proved",
   "theorems": [
    "Verif.SVMap.SMProps.copy_copies"
   ],
   "note": ""
  },
  {
   "property": "C102",
   "status": "proved",
   "theorems": [
    "Verif.SVMap.SMProps.independent"
   ],
   "note": ""
  },
  {
   "property": "C103",
   "status": "proved",
   "theorems": [
    "Verif.VMap.VMProps.insert_new",
    "Verif.VMap.VMProps.insert_element",
    "Verif.VMap.VMProps.insert_present",
    "Verif.VMap.VMProps.index_refers"
   ],
   "note": ""
  },
  {
   "property": "C104",
   "status": "proved",
   "theorems": [
    "Verif.VMap.VMProps.dictionary_history",
    "Verif.VMap.VMProps.new_dictionary_history"
   ],
   "note": ""
  },
  {
   "property": "C105",
   "status": "proved",
   "theorems": [
    "Verif.Arr.ArrProps.array_history",
    "Verif.Arr.ArrProps.fill_own",
    "Verif.Arr.ArrProps.empty_front_back"
   ],
   "note": ""
  },
  {
   "property": "C106",
   "status": "proved",
   "theorems": [
    "Verif.Arr.ArrProps.equal_compares",
    "Verif.Arr.ArrProps.equal_iff_same"
   ],
   "note": ""
  },
  {
   "property": "C107",
   "status": "proved",
   "theorems": [
    "Verif.Util.UtilProps.pair_swap",
    "Verif.Util.UtilProps.pair_assign",
    "Verif.Util.UtilProps.pair_assign_converts",
    "Verif.Util.UtilProps.pair_equal"
   ],
   "note": ""
  },
  {
   "property": "C108",
   "status": "partial",
   "theorems": [
    "Verif.Util.UtilProps.distance_exact_partial",
    "Verif.Util.UtilProps.distance_wraps"
   ],
   "note": "distance returns int: exact up to INT_MAX, and wrong for every longer range (distance_wraps)."
  },
  {
   "property": "C109",
   "status": "partial",
   "theorems": [
    "Verif.Traits.TraitsProps.isConst_iff_partial",
    "Verif.Traits.TraitsProps.isVolatile_iff_partial",
    "Verif.Traits.TraitsProps.isConst_rref",
    "Verif.Traits.TraitsProps.removeConst_spec",
    "Verif.Traits.TraitsProps.removeVolatile_spec",
    "Verif.Traits.TraitsProps.removeCv_spec",
    "Verif.Traits.TraitsProps.removeReference_spec"
   ],
   "note": "Proved for every type except rvalue references as arguments of is_const and is_volatile: those instantiations form a pointer to a reference and do not compile (isConst_rref)."
  },
  {
   "property": "C110",
   "status": "proved",
   "theorems": [
    "Verif.Traits.TraitsProps.isIntegral_iff",
    "Verif.Traits.TraitsProps.isFloating_iff",
    "Verif.Traits.TraitsProps.isVoid_iff",
    "Verif.Traits.TraitsProps.isSigned_iff",
    "Verif.Traits.TraitsProps.isUnsigned_iff",
    "Verif.Traits.TraitsProps.signed_or_unsigned",
    "Verif.Traits.TraitsProps.isPointer_iff",
    "Verif.Traits.TraitsProps.isArray_iff",
    "Verif.Traits.TraitsProps.composite_iff",
    "Verif.Traits.TraitsProps.isSame_iff",
    "Verif.Traits.TraitsProps.categories_disjoint"
   ],
   "note": ""
  },
  {
   "property": "C111",
   "status": "partial",
   "theorems": [
    "Verif.Rb.Weak.weak_calls_return_partial",
    "Verif.Rb.Weak.weak_iteration_partial",
    "Verif.Rb.Weak.weak_insert_partial",
    "Verif.Rb.Weak.weak_find_partial",
    "Verif.Rb.Weak.weak_lower_bound_partial",
    "Verif.Rb.Weak.weak_erase_partial",
    "Verif.Rb.Weak.find_misses_equivalent",
    "Verif.Rb.Weak.erase_loses_equivalent"
   ],
   "note": "False of the code: the search loops test key == x after key < x, so an equivalent unequal key sends them right: insert adds an equivalent key, then find and count miss keys that are present and insert adds an equal key twice (find_misses_equivalent, for any two equivalent unequal keys). erase(k) with an equivalent element behind k can cut off, lose and leak an innocent third element (erase_loses_equivalent, for any such keys). Proved, for all histories that never erase a key that an equivalent element follows: every call returns, iteration is weakly ascending, lower_bound and erase are right, insert/find are right unless an equivalent unequal key is present. Nothing else is missing: outside those histories the tree loses its invariants."
  },
  {
   "property": "C112",
   "status": "proved",
   "theorems": [
    "Verif.Rb.Ref.own_key_is_a_copy",
    "Verif.Rb.Ref.erase_own_key",
    "Verif.Rb.Ref.insert_own_element",
    "Verif.Rb.Ref.subscript_own_key"
   ],
   "note": ""
  },
  {
   "property": "C113",
   "status": "partial",
   "theorems": [
    "Verif.Rb.MapAt.at_present_partial",
    "Verif.Rb.MapAt.at_absent_ub"
   ],
   "note": "Proved for present keys. at of an absent key reads the value of the header node, which has none: undefined behaviour for every map and absent key (at_absent_ub)."
  },
  {
   "property": "C114",
   "status": "partial",
   "theorems": [
    "Verif.Seq.ListProps.self_merge"
   ],
   "note": "False of the code for every non-empty list. self_merge decides the outcome for every sorted list: if two equivalent elements are followed by a greater one the call never returns, otherwise it returns with the list empty and its nodes leaked."
  },
  {
   "property": "C115",
   "status": "proved",
   "theorems": [
    "Verif.Rb.Range.insert_other_range",
    "Verif.Rb.Range.insert_own_range",
    "Verif.Rb.Range.construct_from_range"
   ],
   "note": ""
  },
  {
   "property": "C116",
   "status": "partial",
   "theorems": [
    "Verif.Algo.fill_own_value",
    "Verif.Algo.fill_n_own_value",
    "Verif.Algo.replace_if_own_value",
    "Verif.Algo.replace_copy_own_values",
    "Verif.Algo.remove_copy_own_value",
    "Verif.Algo.replace_other_value_partial",
    "Verif.Algo.replace_own_old_value",
    "Verif.Algo.remove_other_value_partial",
    "Verif.Algo.remove_own_value"
   ],
   "note": "Holds for fill, fill_n, replace_if, replace_copy and remove_copy. replace and remove re-read their argument after overwriting it (as std does): proved if the argument is outside the range, and the exact other outcome is proved otherwise (replace_own_old_value, remove_own_value)."
  },
  {
   "property": "C117",
   "status": "proved",
   "theorems": [
    "Verif.Gen.list_algorithms",
    "Verif.Gen.forward_list_algorithms",
    "Verif.Gen.backward_list_algorithms",
    "Verif.Gen.lazy_queue_algorithms",
    "Verif.Gen.vector_algorithms",
    "Verif.Gen.fixed_vector_algorithms",
    "Verif.Gen.vector_map_algorithms",
    "Verif.Gen.map_set_ranges",
    "Verif.Gen.sorted_vector_map_ranges",
    "Verif.Gen.array_algorithms",
    "Verif.Gen.list_presents",
    "Verif.Gen.fwd_presents",
    "Verif.Gen.bwd_presents",
    "Verif.Gen.lazy_presents",
    "Verif.Gen.vec_presents",
    "Verif.Gen.vec_random",
    "Verif.Gen.fv_presents",
    "Verif.Gen.fv_random",
    "Verif.Gen.tree_presents",
    "Verif.Gen.sorted_presents",
    "Verif.Gen.vmap_presents",
    "Verif.Gen.array_presents"
   ],
   "note": "For lists with intact structure (see the self-merge and splice bugs)."
  },
  {
   "property": "C118",
   "status": "proved",
   "theorems": [
    "Verif.Gen.find_if_calls",
    "Verif.Gen.find_if_not_calls",
    "Verif.Gen.quantifiers_calls",
    "Verif.Gen.count_if_calls",
    "Verif.Gen.equal_calls",
    "Verif.Gen.modifying_calls",
    "Verif.Gen.copying_calls",
    "Verif.Gen.find_if_any",
    "Verif.Gen.find_if_not_any",
    "Verif.Gen.quantifiers_any",
    "Verif.Gen.count_if_any",
    "Verif.Gen.equal4_any",
    "Verif.Gen.equal3_any",
    "Verif.Gen.mismatch4_any",
    "Verif.Gen.adjacent_find_any",
    "Verif.Gen.replace_if_any",
    "Verif.Gen.remove_if_any",
    "Verif.Gen.transform_any",
    "Verif.Gen.copy_if_any",
    "Verif.Gen.remove_copy_if_any",
    "Verif.Gen.replace_copy_if_any",
    "Verif.Gen.generate_any",
    "Verif.Gen.generate_n_any",
    "Verif.Gen.transform2_any",
    "Verif.Gen.merge_comparisons",
    "Verif.Gen.lower_bound_any",
    "Verif.Gen.upper_bound_any",
    "Verif.Gen.binary_search_any",
    "Verif.Gen.equal_range_any"
   ],
   "note": "Binary searches and count_if for ranges below 2^31 elements."
  },
  {
   "property": "C119",
   "status": "proved",
   "theorems": [
    "Verif.Gen.list_algorithms",
    "Verif.Gen.forward_list_algorithms",
    "Verif.Gen.backward_list_algorithms",
    "Verif.Gen.lazy_queue_algorithms",
    "Verif.Gen.vector_algorithms",
    "Verif.Gen.fixed_vector_algorithms",
    "Verif.Gen.vector_map_algorithms",
    "Verif.Gen.array_algorithms",
    "Verif.Gen.Presents.works",
    "Verif.Gen.Presents.works_part",
    "Verif.Gen.list_presents2",
    "Verif.Gen.fwd_presents2",
    "Verif.Gen.bwd_presents2",
    "Verif.Gen.lazy_presents2",
    "Verif.Gen.vec_presents2",
    "Verif.Gen.fv_presents2",
    "Verif.Gen.Presents.both",
    "Verif.Gen.BiPresents.both",
    "Verif.Gen.Presents2.transform",
    "Verif.Gen.Presents2.copy",
    "Verif.Gen.Presents2.copy_n",
    "Verif.Gen.Presents2.copy_if",
    "Verif.Gen.Presents2.remove_copy_if",
    "Verif.Gen.Presents2.replace_copy_if",
    "Verif.Gen.Presents2.swap_ranges",
    "Verif.Gen.BiPresents.reverse",
    "Verif.Gen.BiPresents2.reverse_copy",
    "Verif.Gen.BiPresents2.copy_backward",
    "Verif.Gen.At.copy",
    "Verif.Gen.At.copy_if",
    "Verif.Gen.At.remove_copy_if",
    "Verif.Gen.At.transform",
    "Verif.Gen.At.merge",
    "Verif.Gen.copy_left",
    "Verif.Gen.copy_if_left",
    "Verif.Gen.merge_any"
   ],
   "note": "remove_if leaves unspecified values behind the new end (as std). Containers in different memories stand for containers of different kinds."
  },
  {
   "property": "C120",
   "status": "partial",
   "theorems": [
    "Verif.SVMap.AnyProps.any_call_returns_partial",
    "Verif.SVMap.AnyProps.any_lists_partial",
    "Verif.SVMap.AnyProps.any_insert_partial",
    "Verif.SVMap.AnyProps.any_index_partial",
    "Verif.SVMap.AnyProps.any_find_sound_partial",
    "Verif.SVMap.AnyProps.any_no_leak_partial"
   ],
   "note": "Missing only: maps made with sorted_vector_map(1), which overflow their array (see the finding on prealloc 1). No assumption on the comparator or the number of elements."
  },
  {
   "property": "C121",
   "status": "partial",
   "theorems": [
    "Verif.SVMap.AnyProps.weak_sorted_partial",
    "Verif.SVMap.AnyProps.weak_lower_bound_partial",
    "Verif.SVMap.AnyProps.weak_find_partial",
    "Verif.SVMap.AnyProps.weak_insert_partial",
    "Verif.SVMap.AnyProps.weak_loses_keys"
   ],
   "note": "False of the code: bsearch tests == first and goes left at an equivalent unequal key, so insert keeps all equivalent keys, and with any three of them the first is not found any more and can be inserted twice (weak_loses_keys). Proved below 2^32 elements: iteration is weakly ascending, lower_bound separates, and find and insert are right unless an equivalent unequal key is present."
  },
  {
   "property": "C122",
   "status": "proved",
   "theorems": [
    "Verif.SVMap.AnyProps.find_examines_few"
   ],
   "note": ""
  },
  {
   "property": "C123",
   "status": "partial",
   "theorems": [
    "Verif.Rb.AnyOrder.any_calls_return_partial",
    "Verif.Rb.AnyOrder.any_iteration_partial",
    "Verif.Rb.AnyOrder.any_insert_partial",
    "Verif.Rb.AnyOrder.any_find_partial",
    "Verif.Rb.AnyOrder.any_erase_partial",
    "Verif.Rb.AnyOrder.any_no_leak_partial",
    "Verif.Rb.Weak.erase_loses_equivalent"
   ],
   "note": "No assumption on the comparator. Excluded is only erase(k) while an element with key k is followed by one that k is not less than; there the property is false of the code (erase_loses_equivalent: another element is lost and leaked)."
  },
  {
   "property": "C124",
   "status": "partial",
   "theorems": [
    "Verif.Seq.ListProps.insert_range_partial",
    "Verif.Seq.ListProps.insert_range_same",
    "Verif.Seq.ListProps.insert_own_range_endless",
    "Verif.Seq.ListProps.construct_range",
    "Verif.Seq.ListProps.assign_part_partial",
    "Verif.Seq.ListProps.assign_own_range_ub",
    "Verif.Seq.ListProps.assign_nonempty_ub",
    "Verif.Seq.FwdProps.insert_range_partial",
    "Verif.Seq.FwdProps.insert_range_same",
    "Verif.Seq.FwdProps.insert_own_range_endless",
    "Verif.Seq.FwdProps.construct_range",
    "Verif.Seq.FwdProps.assign_part_partial",
    "Verif.Seq.FwdProps.assign_own_range_ub",
    "Verif.Seq.BwdProps.insert_range_partial",
    "Verif.Seq.BwdProps.insert_range_same",
    "Verif.Seq.BwdProps.insert_own_range_endless",
    "Verif.Seq.BwdProps.insert_part_at_end_loses_end",
    "Verif.Seq.BwdProps.construct_range_same",
    "Verif.Seq.BwdProps.construct_part_loses_end",
    "Verif.Seq.BwdProps.assign_range_same",
    "Verif.Seq.BwdProps.assign_part_loses_end",
    "Verif.Seq.BwdProps.assign_own_range_ub",
    "Verif.Seq.LazyProps.insert_range_partial",
    "Verif.Seq.LazyProps.insert_range_same",
    "Verif.Seq.LazyProps.insert_own_range_endless"
   ],
   "note": "Proved for parts of other lists and for own parts unless the element in front of (at) the position is in the part; there the insertion never returns (insert_own_range_endless). False of the code besides: assign with a non-empty own part is UB, assign of list on a non-empty list is UB, backward_list at its end loses before_end()."
  },
  {
   "property": "C125",
   "status": "proved",
   "theorems": [
    "Verif.Util.less_order",
    "Verif.Util.greater_order",
    "Verif.Util.exactly_one",
    "Verif.Util.equal_or_not",
    "Verif.Util.tree_descends",
    "Verif.Util.lower_bound_descending",
    "Verif.Util.upper_bound_descending",
    "Verif.Util.binary_search_descending",
    "Verif.Util.merge_descending",
    "Verif.Util.sorted_map_descends",
    "Verif.Util.greater_needs_gt",
    "Verif.Util.not_equal_to_needs_ne",
    "Verif.Util.equal_and_not"
   ],
   "note": ""
  },
  {
   "property": "C126",
   "status": "proved",
   "theorems": [
    "Verif.Exc.XList.call_points",
    "Verif.Exc.XList.call_outcome",
    "Verif.Exc.XList.XReach.reach",
    "Verif.Exc.XList.XReach.goes_on",
    "Verif.Exc.XList.interrupted_unique",
    "Verif.Exc.XList.push_back_strong",
    "Verif.Exc.XList.push_front_strong",
    "Verif.Exc.XList.insert_strong",
    "Verif.Exc.XList.insert_range_interrupted",
    "Verif.Exc.XList.remove_if_interrupted",
    "Verif.Exc.XList.merge_interrupted",
    "Verif.Exc.XList.XReach.lreach",
    "Verif.Exc.XList.LReach.goes_on",
    "Verif.Exc.XList.LReach.observes",
    "Verif.Exc.XList.LReach.storage"
   ],
   "note": "XReach: histories without throwing constructors. LReach adds constructors that throw, which lose nodes (C127): calls still return or throw as stated and every list is seen as it should be."
  },
  {
   "property": "C127",
   "status": "partial",
   "theorems": [
    "Verif.Exc.XList.ctor_first_throw_clean_partial",
    "Verif.Exc.XList.ctor_vals_points",
    "Verif.Exc.XList.ctor_n_points",
    "Verif.Exc.XList.copy_ctor_points",
    "Verif.Exc.XList.ctor_throw_leaks",
    "Verif.Exc.XList.assign_throw_loses",
    "Verif.Exc.XList.LReach.goes_on",
    "Verif.Exc.XList.LReach.storage",
    "Verif.Exc.XList.LReach.all_destroyed",
    "Verif.Exc.XList.LReach.lost_stay"
   ],
   "note": "False of the code: the destructor of a list whose constructor throws is not run, so the k elements made before the throw leak (ctor_throw_leaks; *_points: that is the only trace, other lists are unchanged; LReach.*: over any history what is lost is exactly the union of these nodes, never touched again, and everything else goes on as if nothing had been lost); operator= loses the old elements (assign_throw_loses). Proved: nothing is left when the first element throws."
  },
  {
   "property": "C128",
   "status": "partial",
   "theorems": [
    "Verif.Exc.XVec.call_points",
    "Verif.Exc.XVec.call_outcome",
    "Verif.Exc.XVec.insert_counted",
    "Verif.Exc.XVec.erase_counted",
    "Verif.Exc.XVec.returns_same",
    "Verif.Exc.XVec.XReach.fine",
    "Verif.Exc.XVec.XReach.goes_on",
    "Verif.Exc.XVec.throw_others_kept",
    "Verif.Exc.XVec.reach_xreach",
    "Verif.Exc.XVec.growth_strong_partial",
    "Verif.Exc.XVec.failed_allocation_no_trace",
    "Verif.Exc.XVec.throwing_copy_leaks",
    "Verif.Exc.XVec.unowned_stays",
    "Verif.Exc.XVec.in_place_throw_ruins",
    "Verif.Exc.XVec.push_back_throw_ruins",
    "Verif.Exc.XVec.erase_throw_ruins",
    "Verif.Exc.XVec.resize_throw_ruins",
    "Verif.Exc.XVec.reserve_can_throw"
   ],
   "note": "False of the code. Proved for all histories, also those that go on after a vector was ruined (XReach.goes_on, throw_others_kept: no other vector is ever concerned): every call that reserves, constructs, or inserts into a new block has the strong guarantee except that the new block leaks if an element copy throws (growth_strong_partial, throwing_copy_leaks; failed_allocation_no_trace: no trace if the allocation fails). An insertion within the capacity or an erasure that throws leaves a vector that counts a slot without object: clear, iteration and the destructor are undefined behaviour (in_place_throw_ruins, push_back_throw_ruins, erase_throw_ruins). call_outcome says for every call and point what is left; assignments have cleared the vector first."
  },
  {
   "property": "C129",
   "status": "partial",
   "theorems": [
    "Verif.Exc.XRb.call_points",
    "Verif.Exc.XRb.call_outcome",
    "Verif.Exc.XRb.XReach.goes_on",
    "Verif.Exc.XRb.iteration",
    "Verif.Exc.XRb.lookups",
    "Verif.Exc.XRb.backward_partial",
    "Verif.Exc.XRb.memory",
    "Verif.Exc.XRb.no_leak",
    "Verif.Exc.XRb.only_copies_lose",
    "Verif.Exc.XRb.insert_strong",
    "Verif.Exc.XRb.erase_interrupted",
    "Verif.Exc.XRb.XReach.returns",
    "Verif.Exc.XRb.backward_after_throw_fails",
    "Verif.Exc.XRb.erase_after_throw_loses",
    "Verif.Exc.XRb.copy_leaks",
    "Verif.Exc.XRb.assign_leaks"
   ],
   "note": "False of the code in three ways: an erase that throws leaves the colours unrepaired, so that --it on the second of three elements gives end() (backward_after_throw_fails) and the next erase may take a second element away and leak it (erase_after_throw_loses, for every container of four elements); an interrupted copy or assignment leaks the nodes made so far (copy_leaks, assign_leaks). Proved for all histories without erase on a container whose last erase threw: every call returns or throws and goes on, forward iteration, find and lower_bound are right, insert has the strong guarantee, an interrupted erase keeps all elements in their nodes, nothing else leaks; backward iteration unless the last erase threw."
  },
  {
   "property": "C130",
   "status": "partial",
   "theorems": [
    "Verif.Exc.XSM.call_points",
    "Verif.Exc.XSM.XRuns.goes_on",
    "Verif.Exc.XSM.lists",
    "Verif.Exc.XSM.observes",
    "Verif.Exc.XSM.unchanged",
    "Verif.Exc.XSM.others_unchanged",
    "Verif.Exc.XSM.lost",
    "Verif.Exc.XSM.memory",
    "Verif.Exc.XSM.no_leak",
    "Verif.Exc.XSM.separate",
    "Verif.Exc.XSM.lookups",
    "Verif.Exc.XSM.ruined_map",
    "Verif.Exc.XSM.insert_ruins",
    "Verif.Exc.XSM.insert_leaks",
    "Verif.Exc.XSM.copy_leaks",
    "Verif.Exc.XSM.insert_never_safe"
   ],
   "note": "False of the code: every insertion of an absent key has a point where an exception does damage (insert_never_safe). Into a map with room, the map counts one element too many afterwards: an element is seen twice and destroyed twice, or iteration is undefined behaviour (insert_ruins, ruined_map); into a full map, the new array leaks (insert_leaks); a copy constructor leaks the k + 1 blocks made so far (copy_leaks). Proved for all histories in which a map whose size changed at a throw is not used again: every call returns or throws (XRuns.goes_on), call_points counts the points, all other maps keep their elements, a thrown call that did not change the size had no effect on the map, iteration and lookups are right, and only insertions into full maps and copies leak."
  },
  {
   "property": "C131",
   "status": "proved",
   "theorems": [
    "Verif.Exc.XFwd.call_points",
    "Verif.Exc.XFwd.call_outcome",
    "Verif.Exc.XFwd.XReach.reach",
    "Verif.Exc.XFwd.XReach.goes_on",
    "Verif.Exc.XFwd.interrupted_unique",
    "Verif.Exc.XFwd.push_front_strong",
    "Verif.Exc.XFwd.insert_strong",
    "Verif.Exc.XFwd.insert_range_interrupted",
    "Verif.Exc.XFwd.assign_interrupted",
    "Verif.Exc.XFwd.XReach.lreach",
    "Verif.Exc.XFwd.LReach.goes_on",
    "Verif.Exc.XFwd.LReach.observes",
    "Verif.Exc.XFwd.LReach.storage"
   ],
   "note": "XReach: histories without throwing constructors. LReach adds constructors that throw, which lose nodes (C132): calls still return or throw as stated and every list is seen as it should be."
  },
  {
   "property": "C132",
   "status": "partial",
   "theorems": [
    "Verif.Exc.XFwd.ctor_first_throw_clean_partial",
    "Verif.Exc.XFwd.ctor_vals_points",
    "Verif.Exc.XFwd.ctor_n_points",
    "Verif.Exc.XFwd.copy_ctor_points",
    "Verif.Exc.XFwd.ctor_throw_leaks",
    "Verif.Exc.XFwd.assign_throw_loses",
    "Verif.Exc.XFwd.LReach.goes_on",
    "Verif.Exc.XFwd.LReach.storage",
    "Verif.Exc.XFwd.LReach.all_destroyed",
    "Verif.Exc.XFwd.LReach.lost_stay",
    "Verif.Exc.XBwd.ctor_first_throw_clean_partial",
    "Verif.Exc.XBwd.ctor_vals_points",
    "Verif.Exc.XBwd.ctor_n_points",
    "Verif.Exc.XBwd.copy_ctor_points",
    "Verif.Exc.XBwd.ctor_throw_leaks",
    "Verif.Exc.XBwd.assign_throw_loses",
    "Verif.Exc.XBwd.LReach.goes_on",
    "Verif.Exc.XBwd.LReach.storage",
    "Verif.Exc.XBwd.LReach.all_destroyed",
    "Verif.Exc.XBwd.LReach.lost_stay"
   ],
   "note": "False of the code, as for list: the k elements made before the throw leak (ctor_throw_leaks; *_points: that is the only trace; LReach.*: over any history what is lost is exactly these nodes, never touched again, and everything else goes on as if nothing had been lost), operator= loses the old elements (assign_throw_loses). Proved: nothing is left when the first element throws."
  },
  {
   "property": "C133",
   "status": "partial",
   "theorems": [
    "Verif.Exc.XBwd.call_points",
    "Verif.Exc.XBwd.call_outcome",
    "Verif.Exc.XBwd.XReach.reach",
    "Verif.Exc.XBwd.XReach.goes_on",
    "Verif.Exc.XBwd.interrupted_unique",
    "Verif.Exc.XBwd.push_front_strong",
    "Verif.Exc.XBwd.push_back_strong",
    "Verif.Exc.XBwd.insert_strong",
    "Verif.Exc.XBwd.insert_range_interrupted",
    "Verif.Exc.XBwd.assign_interrupted",
    "Verif.Exc.XBwd.insert_n_throw_loses_end",
    "Verif.Exc.XBwd.XReach.lreach",
    "Verif.Exc.XBwd.LReach.goes_on",
    "Verif.Exc.XBwd.LReach.shows",
    "Verif.Exc.XBwd.LReach.observes",
    "Verif.Exc.XBwd.LReach.storage"
   ],
   "note": "False of the code for before_end(): an insert_after(before_end(), n, v) left by an exception at the second or a later copy has inserted elements but not moved before_end(), so the next push_back inserts in the middle (insert_n_throw_loses_end). Everything else is proved: elements intact, no leak, no undefined behaviour, other lists unchanged, histories go on; before_end() stays right for insertions before the last element."
  },
  {
   "property": "C134",
   "status": "partial",
   "theorems": [
    "Verif.Exc.XLq.call_points",
    "Verif.Exc.XLq.call_outcome",
    "Verif.Exc.XLq.queue_observes",
    "Verif.Exc.XLq.memory",
    "Verif.Exc.XLq.lost_forever",
    "Verif.Exc.XLq.reach_xreach",
    "Verif.Exc.XLq.single_throw_partial",
    "Verif.Exc.XLq.push_back_throw_leaks",
    "Verif.Exc.XLq.copy_ctor_interrupted",
    "Verif.Exc.XLq.ctor_n_interrupted"
   ],
   "note": "False of the code only for leaks: if copying the value throws, get_node loses the node it took (push_back_throw_leaks), and a constructor that throws loses all nodes made so far (copy_ctor_interrupted, ctor_n_interrupted, with their number). Everything else is proved for all histories: call_outcome (every call returns or throws, at any of its points), single_throw_partial (no effect but at most one lost node), memory (all storage belongs to a queue or is lost)."
  },
  {
   "property": "C135",
   "status": "partial",
   "theorems": [
    "Verif.Exc.XLq.call_outcome",
    "Verif.Exc.XLq.queue_observes",
    "Verif.Exc.XLq.memory",
    "Verif.Exc.XLq.insert_range_interrupted_partial",
    "Verif.Exc.XLq.insert_n_interrupted_partial",
    "Verif.Exc.XLq.assign_interrupted_partial",
    "Verif.Exc.XLq.assign_throw_loses",
    "Verif.Exc.XLq.stale_queue",
    "Verif.Exc.XLq.stale_push_back",
    "Verif.Exc.XLq.insert_end_throw_loses_end",
    "Verif.Exc.XLq.stale_pop_push_loses",
    "Verif.Exc.XLq.stale_clear",
    "Verif.Exc.XLq.stale_destroy"
   ],
   "note": "False of the code: an insertion behind the last element left by an exception after the first element does not set the end, so back() is an old element (or undefined behaviour if the queue was empty) and push_back inserts in the middle (insert_end_throw_loses_end, stale_push_back), or loses its element (stale_pop_push_loses); operator= has dropped the old elements (assign_throw_loses); a node may be lost as in C134. Proved: the first elements are inserted in order and nothing else changes, the queue is fully in order if the position was not the last element or nothing was inserted; iteration is right in any case and clear() or the destructor put it right."
  },
  {
   "property": "C136",
   "status": "partial",
   "theorems": [
    "Verif.Exc.XFv.call_points",
    "Verif.Exc.XFv.outcome",
    "Verif.Exc.XFv.XReach.world",
    "Verif.Exc.XFv.reach_xreach",
    "Verif.Exc.XFv.history_partial",
    "Verif.Exc.XFv.throw_others_kept_partial",
    "Verif.Exc.XFv.nothing_copied_no_throw",
    "Verif.Exc.XFv.store_throw_partial",
    "Verif.Exc.XFv.resize_throw",
    "Verif.Exc.XFv.throw_ruins",
    "Verif.Exc.XFv.push_back_throw_ruins",
    "Verif.Exc.XFv.erase_throw_ruins",
    "Verif.Exc.XFv.assign_throw_ruins",
    "Verif.Exc.XFv.insert_throw_ruins",
    "Verif.Exc.XFv.swap_equal_throw_partial",
    "Verif.Exc.XFv.swap_throw_loses_element",
    "Verif.Exc.XFv.swap_shorter_throw_partial",
    "Verif.Exc.XFv.swap_shorter_throw_ruins",
    "Verif.Exc.XFv.nothing_else_partial"
   ],
   "note": "False of the code: last_ is moved before the elements are made, so every push_back, insert, assign, operator=, growing resize and erase that throws leaves a fixed_vector that counts a slot without object: reading, clear and the destructor are undefined behaviour (throw_ruins for every call of that kind and every point). A swap that throws at the third copy of an exchange loses an element (swap_throw_loses_element) and, in its second phase, ruins the shorter one (swap_shorter_throw_ruins). Proved for all histories: every call returns or throws (outcome), all other fixed_vectors stay as they were and usable, an element assignment or the first point of resize(n) has no effect, and what both fixed_vectors hold after each point of swap."
  },
  {
   "property": "C137",
   "status": "partial",
   "theorems": [
    "Verif.Exc.XFv.ctor_throw_partial",
    "Verif.Exc.XFv.ctor_throw_leaks",
    "Verif.Exc.XFv.copy_ctor_throw_leaks"
   ],
   "note": "False of the code: the destructor of an object whose constructor throws is not run, so the elements made before are never destroyed (ctor_throw_leaks, all constructors and points). Proved: all other fixed_vectors are unchanged and the program can go on."
  },
  {
   "property": "C138",
   "status": "partial",
   "theorems": [
    "Verif.Exc.XVM.call_points",
    "Verif.Exc.XVM.call_outcome",
    "Verif.Exc.XVM.VXSteps.vec",
    "Verif.Exc.XVM.VXReach.goes_on",
    "Verif.Exc.XVM.throw_others_kept",
    "Verif.Exc.XVM.reach_xreach",
    "Verif.Exc.XVM.find_throw",
    "Verif.Exc.XVM.count_absent_throw",
    "Verif.Exc.XVM.count_present_throw",
    "Verif.Exc.XVM.present_key_strong",
    "Verif.Exc.XVM.full_map_strong_partial",
    "Verif.Exc.XVM.full_map_leaks",
    "Verif.Exc.XVM.insert_throw_ruins",
    "Verif.Exc.XVM.insert_never_safe",
    "Verif.Exc.XVM.put_throw",
    "Verif.Exc.XVM.put_throw_leaves_default",
    "Verif.Exc.XVM.erase_throw_ruins"
   ],
   "note": "False of the code, for the reasons of C128: insert or operator[] of an absent key into a map with room, whose copy of the entry throws, and an erase that throws while it moves entries, leave a map whose destructor, clear and iteration are undefined behaviour (insert_throw_ruins, insert_never_safe, erase_throw_ruins); into a full map, the new block leaks if a copy throws (full_map_leaks). Proved for all histories, also those that go on after a map was ruined: every call returns or throws and leaves what Thrown says; lookups change nothing; calls with a present key and insertions into a full map have no effect when they throw; m[k] = v leaves the map as it was, with (k, T()), or ruined (put_throw); no other map is ever concerned."
  },
  {
   "property": "C139",
   "status": "proved",
   "theorems": [
    "Verif.Rb.Container.equal_compares",
    "Verif.Rb.Container.not_equal_compares",
    "Verif.Rb.Container.equal_compares_values"
   ],
   "note": ""
  },
  {
   "property": "C140",
   "status": "partial",
   "theorems": [
    "Verif.Vec.MachProps.machine_reach",
    "Verif.Vec.MachProps.request_fits_partial",
    "Verif.Vec.MachProps.request_up_to_max_size_partial",
    "Verif.Vec.MachProps.storage_enough",
    "Verif.Vec.MachProps.machine_history_partial",
    "Verif.Vec.MachProps.construct_too_many_ub",
    "Verif.Vec.MachProps.construct_n_too_many_ub",
    "Verif.Vec.MachProps.insert_huge_ignored",
    "Verif.Vec.MachProps.resize_huge_ignored",
    "Verif.Vec.MachProps.resize_x_huge_ignored",
    "Verif.Vec.MachProps.insert_too_many_ub",
    "Verif.Vec.MachProps.resize_too_many_ub",
    "Verif.Vec.MachProps.reserve_wraps_ignored",
    "Verif.Vec.MachProps.reserve_too_many",
    "Verif.Vec.MachProps.assign_too_many_ub"
   ],
   "note": "Proved for every modulus, sizeof(T) and placement of blocks: while requests are for at most max_size() elements and a number that a difference_type can count, which is the same if sizeof(T) is 2 or more (and, for reserve, elements_ + n is an address), every call does exactly what it does with natural numbers, so every theorem about vector applies, and storage has capacity() slots. False of the code above max_size(): n * sizeof(T) wraps around, so vector(n), vector(n, x), assign(n, x), insert and resize write outside the storage (_ub theorems); reserve returns without the room it promises; insert(pos, n, x) and resize convert n to a difference_type, so that from half of the range on they silently do nothing; reserve whose elements_ + n wraps around does nothing. Not proved: vectors of one-byte elements with more elements than a difference_type can count (their size() is a difference of pointers that cannot be represented)."
  },
  {
   "property": "C141",
   "status": "partial",
   "theorems": [
    "Verif.Exc.XVec.push_back_cost_partial",
    "Verif.Exc.XVec.push_back_full_cost",
    "Verif.Exc.XVec.push_back_total",
    "Verif.Exc.XVec.push_back_quadratic",
    "Verif.Exc.XVec.reserve_first_partial",
    "Verif.Exc.XVec.insert_cost",
    "Verif.Exc.XVec.erase_cost"
   ],
   "note": "False of the code: insert_values allocates exactly size() + n, so every push_back onto a full vector reallocates; n push_backs onto a new vector make n (n + 3) / 2 allocations and copies (push_back_quadratic). Proved: the exact number for every vector and sequence; with room or after reserve one copy per element and no move; the exact cost of insert and erase of one element."
  },
  {
   "property": "C142",
   "status": "proved",
   "theorems": [
    "Verif.SVMap.AnyProps.reallocations_logarithmic"
   ],
   "note": ""
  },
  {
   "property": "C143",
   "status": "partial",
   "theorems": [
    "Verif.Vec.FV.FMProps.machine_reach",
    "Verif.Vec.FV.FMProps.count_fits_partial",
    "Verif.Vec.FV.FMProps.insert_end_any",
    "Verif.Vec.FV.FMProps.resize_any",
    "Verif.Vec.FV.FMProps.assign_any",
    "Verif.Vec.FV.FMProps.construct_any",
    "Verif.Vec.FV.FMProps.insert_middle_partial",
    "Verif.Vec.FV.FMProps.machine_fixed_history_partial",
    "Verif.Vec.FV.FMProps.insert_wraps_ub",
    "Verif.Vec.FV.FMProps.insert_all_ones_ub",
    "Verif.Vec.FV.FMProps.insert_beyond_memory_ub"
   ],
   "note": "Proved for every modulus, sizeof(T), capacity and placement: construction, assign, resize and insertion at the end truncate any count; an insertion before an element does while last_ + n is an address. False of the code beyond that: last_ + n wraps around, the test against the end of the storage fails and elements are made outside the storage (insert_all_ones_ub: insert(pos, size_type(-1), x) before any element; insert_beyond_memory_ub, insert_wraps_ub in general)."
  },
  {
   "property": "C144",
   "status": "partial",
   "theorems": [
    "Verif.Exc.XList.call_cost",
    "Verif.Exc.XList.relinking_free",
    "Verif.Exc.XList.insertion_cost",
    "Verif.Exc.XList.copy_cost",
    "Verif.Exc.XList.remove_cost",
    "Verif.Exc.XList.merge_cost_partial",
    "Verif.Exc.XList.merge_compares_more"
   ],
   "note": "Exact counts of allocations-with-copy, comparisons and predicate calls for every legal call on every reachable memory. False of merge, which compares the element behind a moved one with the moved one first: at most 2 m + n - 1 comparisons are proved instead of m + n - 1, and merge_compares_more shows that 2 m - 1 are made whenever all m elements are smaller than the first of the n (more than m + n - 1 for m > n)."
  },
  {
   "property": "C145",
   "status": "proved",
   "theorems": [
    "Verif.Exc.XFwd.call_cost",
    "Verif.Exc.XFwd.relinking_free",
    "Verif.Exc.XFwd.insertion_cost",
    "Verif.Exc.XFwd.copy_cost",
    "Verif.Exc.XBwd.call_cost",
    "Verif.Exc.XBwd.relinking_free",
    "Verif.Exc.XBwd.insertion_cost",
    "Verif.Exc.XBwd.copy_cost",
    "Verif.Exc.XLq.call_cost",
    "Verif.Exc.XLq.relinking_free",
    "Verif.Exc.XLq.insertion_cost",
    "Verif.Exc.XLq.traffic_cost"
   ],
   "note": "Exact counts for every legal call on every reachable memory; traffic_cost is about every sequence of push_back and pop_front that never pops an empty queue."
  },
  {
   "property": "C146",
   "status": "proved",
   "theorems": [
    "Verif.Exc.XFv.call_cost",
    "Verif.Exc.XFv.append_cost",
    "Verif.Exc.XFv.insert_cost",
    "Verif.Exc.XFv.insert_range_cost",
    "Verif.Exc.XFv.erase_cost",
    "Verif.Exc.XFv.copy_cost",
    "Verif.Exc.XFv.fill_cost",
    "Verif.Exc.XFv.swap_cost"
   ],
   "note": "Exact counts for every legal call on every memory that a program with any exceptions in its past reaches."
  },
  {
   "property": "C147",
   "status": "partial",
   "theorems": [
    "Verif.Overload.count_selected_iff_partial",
    "Verif.Overload.same_type_selects_range",
    "Verif.Overload.range_selected_iff",
    "Verif.Overload.own_calls_count",
    "Verif.Overload.lazy_ctor_count",
    "Verif.Overload.map_range_insert",
    "Verif.Overload.one_selected",
    "Verif.Overload.Selects.unique"
   ],
   "note": "Exact characterisation for every system of conversions and all types. False of the code: the templates for ranges are not restricted, so a number and a value of the same type other than size_type (two ints, say) select the range overload; only lazy_queue(n, value) has no such competitor."
  },
  {
   "property": "C148",
   "status": "proved",
   "theorems": [
    "Verif.Exc.XRb.lookup_cost",
    "Verif.Exc.XRb.insert_cost",
    "Verif.Exc.XRb.insert_range_cost",
    "Verif.Exc.XRb.erase_cost",
    "Verif.Exc.XRb.copy_cost",
    "Verif.Exc.XRb.free_cost"
   ],
   "note": "Costs counts the operations that may throw: element copies with their allocation, comparator calls, == of keys. map::insert(first, last) and operator[] with their temporaries are the subject of C156."
  },
  {
   "property": "C149",
   "status": "proved",
   "theorems": [
    "Verif.Exc.XSM.lookup_cost",
    "Verif.Exc.XSM.upper_cost",
    "Verif.Exc.XSM.insert_cost",
    "Verif.Exc.XSM.index_cost",
    "Verif.Exc.XSM.copy_cost",
    "Verif.Exc.XSM.other_cost"
   ],
   "note": "Costs counts the operations that may throw: allocations of arrays, pairs with their allocation and copy, comparator calls, == of keys. The temporary make_pair(key, T()) of operator[] counts six: T(), the copy of the key to the parameter, and twice the copies of both. The bounds hold for every comparator; upper_bound needs a strict total order and fewer than 2^32 elements (its scan over equal keys is unbounded otherwise)."
  },
  {
   "property": "C150",
   "status": "partial",
   "theorems": [
    "Verif.Exc.XVec.call_cost",
    "Verif.Exc.XVec.making_cost",
    "Verif.Exc.XVec.insertion_cost",
    "Verif.Exc.XVec.removal_cost",
    "Verif.Exc.XVec.resize_cost",
    "Verif.Exc.XVec.reserve_cost_partial",
    "Verif.Exc.XVec.assignment_cost_partial",
    "Verif.Exc.XVec.assign_range_cost_partial",
    "Verif.Exc.XVec.reserve_capacity_moves",
    "Verif.Exc.XVec.assignment_reallocates",
    "Verif.Exc.XVec.assign_range_quadratic",
    "Verif.Exc.XVec.assign_range_not_linear"
   ],
   "note": "Costs counts allocations and copies of elements (and the temporary T() of resize). call_cost is the exact count of every legal call, the others read it off in terms of size and capacity. Missing because false of the code: reserve(capacity()), assign(capacity(), x) and operator= from a vector of equal capacity allocate although there is room (reserve_capacity_moves, assignment_reallocates), and assign(first, last) does not reserve, so beyond the capacity it allocates for every element and costs quadratically many copies (assign_range_quadratic, assign_range_not_linear)."
  },
  {
   "property": "C151",
   "status": "partial",
   "theorems": [
    "Verif.Exc.XVM.find_present_cost",
    "Verif.Exc.XVM.absent_cost",
    "Verif.Exc.XVM.present_cost",
    "Verif.Exc.XVM.new_cost",
    "Verif.Exc.XVM.erase_key_cost",
    "Verif.Exc.XVM.base_cost",
    "Verif.Exc.XVM.count_present_no_cost"
   ],
   "note": "Costs counts == of keys, allocations, copies of entries (a pair is one copy), the four operations of the temporary of operator[] and assignments of values. All parts hold except that count(key) of a present key never returns, whatever number of comparisons it is given (count_present_no_cost)."
  },
  {
   "property": "C152",
   "status": "partial",
   "theorems": [
    "Verif.Exc.XAlgo.findIf_does",
    "Verif.Exc.XAlgo.findIfNot_does",
    "Verif.Exc.XAlgo.quantifiers_does",
    "Verif.Exc.XAlgo.countIf_does",
    "Verif.Exc.XAlgo.equal4_does",
    "Verif.Exc.XAlgo.equal3_does",
    "Verif.Exc.XAlgo.mismatch4_does",
    "Verif.Exc.XAlgo.adjacentFind_does",
    "Verif.Exc.XAlgo.forEach_does",
    "Verif.Exc.XAlgo.accumulate_does",
    "Verif.Exc.XAlgo.lowerBound_does",
    "Verif.Exc.XAlgo.upperBound_does",
    "Verif.Exc.XAlgo.binarySearch_does",
    "Verif.Exc.XAlgo.equalRange_does",
    "Verif.Exc.XAlgo.fill_does",
    "Verif.Exc.XAlgo.fillN_does",
    "Verif.Exc.XAlgo.generate_does",
    "Verif.Exc.XAlgo.generateN_does",
    "Verif.Exc.XAlgo.iota_does",
    "Verif.Exc.XAlgo.replaceIf_does",
    "Verif.Exc.XAlgo.transform_in_place",
    "Verif.Exc.XAlgo.transform_does",
    "Verif.Exc.XAlgo.transform2_does",
    "Verif.Exc.XAlgo.removeIf_does",
    "Verif.Exc.XAlgo.copy_does",
    "Verif.Exc.XAlgo.copyN_does",
    "Verif.Exc.XAlgo.copyIf_does",
    "Verif.Exc.XAlgo.removeCopyIf_does",
    "Verif.Exc.XAlgo.replaceCopyIf_does",
    "Verif.Exc.XAlgo.reverseCopy_does",
    "Verif.Exc.XAlgo.copyBackward_does",
    "Verif.Exc.XAlgo.merge_does",
    "Verif.Exc.XAlgo.reverse_does",
    "Verif.Exc.XAlgo.swapRanges_does",
    "Verif.Exc.XAlgo.reverse_keeps_partial",
    "Verif.Exc.XAlgo.reverse_loses",
    "Verif.Exc.XAlgo.swapRanges_loses"
   ],
   "note": "All parts hold except that reverse and swap_ranges lose an element (and have another one twice) if the second assignment of an exchange throws (reverse_loses, swapRanges_loses); reverse_keeps_partial: at every other operation reverse loses none. search, search_n, is_sorted, min_element and the like are the subject of C153. The containers present their elements by the theorems of C117-C119."
  },
  {
   "property": "C153",
   "status": "proved",
   "theorems": [
    "Verif.Exc.XAlgo.search_does",
    "Verif.Exc.XAlgo.searchN_does",
    "Verif.Exc.XAlgo.searchNPred_does",
    "Verif.Exc.XAlgo.isSortedUntil_does",
    "Verif.Exc.XAlgo.isSorted_does",
    "Verif.Exc.XAlgo.extrema_does",
    "Verif.Exc.XAlgo.mismatch3_does"
   ],
   "note": "Comparisons without state. Which run search_n with a predicate finds is the subject of the property on search_n."
  },
  {
   "property": "C154",
   "status": "partial",
   "theorems": [
    "Verif.Rb.Edit.write_anything",
    "Verif.Rb.Edit.scribbled_calls_return",
    "Verif.Rb.Edit.scribbled_members",
    "Verif.Rb.Edit.scribbled_no_leak",
    "Verif.Rb.Edit.write_in_place_partial",
    "Verif.Rb.Edit.edited_calls_return_partial",
    "Verif.Rb.Edit.edited_members_partial",
    "Verif.Rb.Edit.find_misses_rekeyed"
   ],
   "note": "The first part holds for all assignments (write_anything, scribbled_*; as with any comparator, except an erase of a key that is followed by one not greater, see C123). The second part holds only for assignments that keep the element greater than those before and less than those behind it (write_in_place_partial, edited_*_partial); in every set with two elements or more there is an element to which a key can be assigned that find then misses (find_misses_rekeyed): operator* of set::iterator should answer a const reference."
  },
  {
   "property": "C155",
   "status": "proved",
   "theorems": [
    "Verif.Rb.Steps.one_step_links",
    "Verif.Rb.Steps.whole_loop_links",
    "Verif.Rb.Steps.clear_depth",
    "Verif.Rb.Steps.copy_depth"
   ],
   "note": "The counting functions (Rb/Steps.lean) are the functions of the model with one more answer; each theorem also states that they answer and leave in memory what the functions of the model do. Assignment is between different containers (self-assignment empties the container, see the property on it)."
  },
  {
   "property": "C156",
   "status": "proved",
   "theorems": [
    "Verif.Exc.XRb.subscript_outcome",
    "Verif.Exc.XRb.putAt_outcome",
    "Verif.Exc.XRb.putAt_leaves_key",
    "Verif.Exc.XRb.atPut_outcome",
    "Verif.Exc.XRb.insertPairs_outcome",
    "Verif.Exc.XRb.pairsCtor_outcome",
    "Verif.Exc.XRb.subscript_cost",
    "Verif.Exc.XRb.insertPairs_cost"
   ],
   "note": "An assignment of a value that throws is taken to have assigned nothing. The temporary pair counts four operations (pair takes its parameters by value)."
  },
  {
   "property": "C157",
   "status": "proved",
   "theorems": [
    "Verif.Rb.Container.call_confined",
    "Verif.Rb.Container.calls_apart",
    "Verif.Rb.Container.reads_confined"
   ],
   "note": "call_confined: the call, run in the memory from which everything outside the named containers has been removed (there every other access is undefined behaviour), returns the same as in the whole memory, and the whole memory afterwards is the small one together with the untouched rest. Belongs says which addresses are part of a container: its header and the positions iteration meets. The allocator is shared and assumed to be safe to call from several threads, the comparator likewise; the memory model has no notion of simultaneous accesses: that threads do not interfere is the conclusion from disjoint sets of accessed nodes."
  },
  {
   "property": "C158",
   "status": "proved",
   "theorems": [
    "Verif.Seq.DList.call_confined",
    "Verif.Seq.DList.calls_apart",
    "Verif.Seq.DList.reads_confined",
    "Verif.Seq.FList.call_confined",
    "Verif.Seq.FList.calls_apart",
    "Verif.Seq.FList.reads_confined",
    "Verif.Seq.BList.call_confined",
    "Verif.Seq.BList.calls_apart",
    "Verif.Seq.BList.reads_confined",
    "Verif.Seq.LQueue.call_confined",
    "Verif.Seq.LQueue.calls_apart",
    "Verif.Seq.LQueue.reads_confined"
   ],
   "note": "Confined p h M: p returns in h.part M, where only the cells of M are allocated and every other access is undefined behaviour, with the same result as in h; afterwards the part of h made of M and the new cells is what the small memory became, and every other cell is the Same. Legal calls only: the calls for which the code is wrong are excluded. The allocator is shared and assumed to be safe to call from several threads; simultaneous accesses are not modelled, non-interference is the conclusion from disjoint sets of accessed cells."
  },
  {
   "property": "C159",
   "status": "proved",
   "theorems": [
    "Verif.Vec.call_confined",
    "Verif.Vec.calls_apart",
    "Verif.Vec.reads_confined",
    "Verif.Vec.FV.call_confined",
    "Verif.Vec.FV.calls_apart",
    "Verif.Vec.FV.reads_confined"
   ],
   "note": "Confined p h O B: p returns in h.part O B, which has only the objects of O and the blocks of B (every other access is undefined behaviour), with the same result as in h; afterwards the part of h made of O, B and what was allocated is what the small memory became, and every other object and block is the same. Legal calls only. A fixed_vector object and its storage have the same identity and end together. The allocator is shared and assumed to be safe to call from several threads; simultaneous accesses are not modelled."
  },
  {
   "property": "C160",
   "status": "proved",
   "theorems": [
    "Verif.SVMap.call_confined",
    "Verif.SVMap.calls_apart",
    "Verif.SVMap.reads_confined",
    "Verif.VMap.call_confined",
    "Verif.VMap.calls_apart",
    "Verif.VMap.reads_confined"
   ],
   "note": "Confined as in C159. Legal calls only: the calls for which the code is wrong (sorted_vector_map(1), insertion beyond 2^32 elements) are excluded. The allocator is shared and assumed to be safe to call from several threads; simultaneous accesses are not modelled."
  },
  {
   "property": "C161",
   "status": "proved",
   "theorems": [
    "Verif.Seq.DList.throw_confined",
    "Verif.Seq.DList.throws_apart",
    "Verif.Seq.FList.throw_confined",
    "Verif.Seq.FList.throws_apart",
    "Verif.Seq.BList.throw_confined",
    "Verif.Seq.BList.throws_apart",
    "Verif.Seq.LQueue.throw_confined",
    "Verif.Seq.LQueue.throws_apart"
   ],
   "note": "Confined as in C158, for the models with exceptions (C126, C127, C131, C132, C134). A lazy_queue that an exception has left out of order (its tail is not its last node) is named by no legal call, as in C134; the others are."
  },
  {
   "property": "C162",
   "status": "proved",
   "theorems": [
    "Verif.Vec.throw_confined",
    "Verif.Vec.throws_apart",
    "Verif.Vec.FV.throw_confined",
    "Verif.Vec.FV.throws_apart"
   ],
   "note": "Confined as in C159, for the models with exceptions (C128, C135 to C137). A vector that an exception has ruined exists no more in the specified state, so no legal call names it; the theorem holds of the calls on the others."
  },
  {
   "property": "C163",
   "status": "proved",
   "theorems": [
    "Verif.Exc.XRb.throw_confined",
    "Verif.Exc.XRb.throws_apart"
   ],
   "note": "As C157 (memory from which everything outside the named containers has been removed), for the model with exceptions of C129. Legal as there: an erase on a container whose last erase threw is not covered (C129 shows that it may lose elements). operator[] of map is not among these calls."
  }
 ]
}