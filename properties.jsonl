{"id": "C01", "title": "map behaves as a finite dictionary over every history", "statement": "Starting from an empty map, after any sequence of insert, operator[] assignment, erase(key) and clear calls, every find/count/empty query and full iteration answers as a mathematical finite partial function from keys to values would; no call touches invalid memory and every call returns.", "quantifier": "every finite sequence of mutating calls with arbitrary keys and values, every query key, every strict total order on keys", "why_tests_cant": "Only finitely many operation histories can be executed; the claim is about every history.", "anchors": ["ttl/map.hpp: map::insert, map::operator[], map::erase, map::find, map::count, map::clear", "ttl/rbtree.hpp: insert_unique, remove, find, clear"]}
{"id": "C02", "title": "set behaves as a finite set over every history", "statement": "Starting from an empty set, after any sequence of insert, erase(key) and clear calls, find/count/empty and full iteration answer as a mathematical finite set would, with no invalid memory access and no non-termination.", "quantifier": "every finite sequence of calls, every query key, every strict total order", "why_tests_cant": "Only finitely many operation histories can be executed; the claim is about every history.", "anchors": ["ttl/set.hpp: set::insert, set::erase, set::find, set::count", "ttl/rbtree.hpp"]}
{"id": "C03", "title": "Iteration over a map/set is strictly ascending and complete", "statement": "Walking from begin() with ++ visits every stored element exactly once, in strictly ascending key order, and reaches end() after exactly as many steps as there are elements; walking from end() with -- visits the same elements in descending order.", "quantifier": "every tree reachable by any history", "why_tests_cant": "Only finitely many operation histories can be executed; the claim is about every history.", "anchors": ["ttl/rbtree.hpp: next_node, prev_node, min_node, max_node", "ttl/map.hpp: begin, end, iterator::operator++, operator--"]}
{"id": "C04", "title": "Search depth is logarithmic", "statement": "In every reachable tree no root-to-leaf path has more than 2*log2(n+1) nodes, n being the number of elements, so find, insert and erase inspect logarithmically many nodes.", "quantifier": "every tree reachable by any history of insertions and removals", "why_tests_cant": "A balance invariant must hold after every one of unboundedly many rebalancing cases.", "anchors": ["ttl/rbtree.hpp: insert_rebalance, remove, fixup, move_left, move_right, delete_min"]}
{"id": "C05", "title": "lower_bound returns the first element not less than the key", "statement": "lower_bound(k) returns the first element in iteration order whose key is not less than k, or end() when there is none.", "quantifier": "every reachable tree, every key", "why_tests_cant": "Only finitely many operation histories can be executed; the claim is about every history.", "anchors": ["ttl/rbtree.hpp: lower_bound", "ttl/map.hpp: lower_bound", "ttl/set.hpp: lower_bound"]}
{"id": "C06", "title": "upper_bound returns the first element greater than the key", "statement": "upper_bound(k) returns the first element in iteration order whose key is greater than k, or end() when there is none; equal_range(k) is the pair (lower_bound(k), upper_bound(k)).", "quantifier": "every reachable tree, every key, present or absent", "why_tests_cant": "Only finitely many operation histories can be executed; the claim is about every history.", "anchors": ["ttl/rbtree.hpp: upper_bound, equal_range", "ttl/map.hpp: upper_bound, equal_range", "ttl/set.hpp: upper_bound, equal_range"]}
{"id": "C07", "title": "insert never overwrites", "statement": "insert of a key already present leaves the map unchanged and returns (iterator to the existing element, false); of an absent key it adds exactly that pair and returns (iterator to it, true).", "quantifier": "every reachable map, every key and value", "why_tests_cant": "Only finitely many operation histories can be executed; the claim is about every history.", "anchors": ["ttl/rbtree.hpp: insert_unique", "ttl/map.hpp: insert"]}
{"id": "C08", "title": "erase removes exactly one key and keeps all other iterators valid", "statement": "erase(k) removes the element with key k if present (and reports whether it did) and nothing else; every other element stays at the same node address with the same value, so iterators and references to other elements stay valid.", "quantifier": "every reachable tree, every key, every iterator held across the call", "why_tests_cant": "Iterator stability must hold for every rotation sequence.", "anchors": ["ttl/rbtree.hpp: remove, delete_min", "ttl/map.hpp: erase"]}
{"id": "C09", "title": "insert keeps all existing iterators valid", "statement": "insert never moves, copies or modifies an existing element: every element present before stays at the same node address with the same value.", "quantifier": "every reachable tree, every inserted value", "why_tests_cant": "Must hold for every rotation sequence.", "anchors": ["ttl/rbtree.hpp: insert_unique, insert_equal, insert_rebalance"]}
{"id": "C10", "title": "Copying a map/set is deep and independent", "statement": "Copy construction or assignment yields a container with equal contents built from fresh nodes; the source is unchanged, and later changes to one of the two never affect the other.", "quantifier": "every pair of reachable trees, every later history on either", "why_tests_cant": "Only finitely many operation histories can be executed; the claim is about every history.", "anchors": ["ttl/rbtree.hpp: assign, preorder_copy", "ttl/map.hpp: operator=", "ttl/set.hpp: operator="]}
{"id": "C11", "title": "Self-assignment of a map/set preserves it", "statement": "m = m leaves m's contents unchanged.", "quantifier": "every reachable tree", "why_tests_cant": "Only finitely many operation histories can be executed; the claim is about every history.", "anchors": ["ttl/rbtree.hpp: assign", "ttl/map.hpp: operator="]}
{"id": "C12", "title": "rbtree::insert_equal is a stable multiset insert", "statement": "insert_equal always adds one element; the in-order sequence afterwards is the old one with the new element placed after all elements not greater than it.", "quantifier": "every reachable tree, every element, duplicates allowed", "why_tests_cant": "Only finitely many operation histories can be executed; the claim is about every history.", "anchors": ["ttl/rbtree.hpp: insert_equal"]}
{"id": "C13", "title": "rbtree::count returns the number of matching elements", "statement": "count(k) equals the number of stored elements whose key equals k.", "quantifier": "every reachable tree including ones with duplicate keys, every key", "why_tests_cant": "Only finitely many operation histories can be executed; the claim is about every history.", "anchors": ["ttl/rbtree.hpp: count"]}
{"id": "C14", "title": "++ and -- on map/set iterators are mutually inverse", "statement": "For every element e with a successor, --(++e) == e; for every element with a predecessor ++(--e) == e; --end() is the greatest element.", "quantifier": "every reachable non-empty tree, every valid iterator position", "why_tests_cant": "Only finitely many operation histories can be executed; the claim is about every history.", "anchors": ["ttl/rbtree.hpp: next_node, prev_node", "ttl/map.hpp: iterator", "ttl/set.hpp: iterator"]}
{"id": "C15", "title": "clear and destruction free every node exactly once", "statement": "clear() (and the destructor, which calls it) deletes every node of the tree exactly once and no other memory, leaving an empty usable tree.", "quantifier": "every reachable tree", "why_tests_cant": "Leaks and double frees depend on the tree shape; all shapes must be covered.", "anchors": ["ttl/rbtree.hpp: clear, postorder_destroy, ~rbtree"]}
{"id": "C16", "title": "erase frees exactly the removed node", "statement": "After erase(k) of a present key exactly one node has been deleted, the removed one; erase of an absent key deletes nothing and changes no element.", "quantifier": "every reachable tree, every key", "why_tests_cant": "Only finitely many operation histories can be executed; the claim is about every history.", "anchors": ["ttl/map.hpp: erase", "ttl/set.hpp: erase", "ttl/rbtree.hpp: remove"]}
{"id": "C17", "title": "list behaves as a sequence over every history of push/pop/insert/erase", "statement": "After any sequence of push_front, push_back, pop_front, pop_back (on non-empty), insert(pos, v), erase(pos), a list's contents, front, back, size and empty agree with the same operations on a mathematical sequence; no invalid memory is touched and every call returns.", "quantifier": "every finite history, every element type", "why_tests_cant": "Only finitely many operation histories can be executed; the claim is about every history.", "anchors": ["ttl/list.hpp: push_front, push_back, pop_front, pop_back, insert, erase, size, empty, front, back"]}
{"id": "C18", "title": "list forward and backward traversals mirror each other", "statement": "Walking begin..end with ++ and walking end..begin with -- visit the same elements in opposite orders.", "quantifier": "every reachable list", "why_tests_cant": "Only finitely many operation histories can be executed; the claim is about every history.", "anchors": ["ttl/list.hpp: iterator::operator++, operator--"]}
{"id": "C19", "title": "list insert(pos, first, last) inserts a whole range in order", "statement": "insert(pos, n, v) and insert(pos, first, last) place the given elements, in order, immediately before pos, and change nothing else.", "quantifier": "every list, every position, every source range", "why_tests_cant": "Only finitely many operation histories can be executed; the claim is about every history.", "anchors": ["ttl/list.hpp: insert"]}
{"id": "C20", "title": "list erase(first, last) removes exactly the half-open range", "statement": "erase(first, last) removes exactly the elements in [first, last), and nothing when first == last.", "quantifier": "every list and every valid sub-range", "why_tests_cant": "Only finitely many operation histories can be executed; the claim is about every history.", "anchors": ["ttl/list.hpp: erase(iterator, iterator)"]}
{"id": "C21", "title": "list clear leaves an empty, usable list", "statement": "clear() frees every node exactly once and leaves an empty list that can be used again.", "quantifier": "every reachable list and every later history", "why_tests_cant": "The damage only shows in a later call.", "anchors": ["ttl/list.hpp: clear"]}
{"id": "C22", "title": "list reverse reverses in place", "statement": "reverse() reverses the element order, reuses the same nodes and allocates or frees nothing.", "quantifier": "every list", "why_tests_cant": "Only finitely many operation histories can be executed; the claim is about every history.", "anchors": ["ttl/list.hpp: reverse"]}
{"id": "C23", "title": "list remove/remove_if delete exactly the matching elements", "statement": "remove_if(p) deletes exactly the elements satisfying p, keeps the others in order at the same nodes; remove(v) likewise for elements equal to v.", "quantifier": "every list, every predicate/value", "why_tests_cant": "Only finitely many operation histories can be executed; the claim is about every history.", "anchors": ["ttl/list.hpp: remove, remove_if"]}
{"id": "C24", "title": "list unique removes consecutive duplicates", "statement": "unique() keeps the first element of each maximal run of equal consecutive elements and deletes the rest.", "quantifier": "every list", "why_tests_cant": "Only finitely many operation histories can be executed; the claim is about every history.", "anchors": ["ttl/list.hpp: unique"]}
{"id": "C25", "title": "list merge is a stable merge that moves nodes", "statement": "a.merge(b) on sorted lists leaves in a the sorted union, elements of a before equal elements of b, leaves b empty, and neither allocates nor frees nodes.", "quantifier": "every pair of distinct lists, every comparator", "why_tests_cant": "Only finitely many operation histories can be executed; the claim is about every history.", "anchors": ["ttl/list.hpp: merge"]}
{"id": "C26", "title": "list splice moves nodes without copying", "statement": "splice moves the designated elements of the source before pos, in order, removes them from the source, copies and frees nothing.", "quantifier": "every pair of lists, every position, every sub-range including empty ones", "why_tests_cant": "Only finitely many operation histories can be executed; the claim is about every history.", "anchors": ["ttl/list.hpp: splice"]}
{"id": "C27", "title": "list swap exchanges contents", "statement": "swap exchanges the two lists' contents in constant time, for empty and non-empty lists alike.", "quantifier": "every pair of lists", "why_tests_cant": "Only finitely many operation histories can be executed; the claim is about every history.", "anchors": ["ttl/list.hpp: swap"]}
{"id": "C28", "title": "list resize sets the size", "statement": "resize(n, v) leaves exactly n elements: the first min(n, size) old ones followed by copies of v.", "quantifier": "every list, every n", "why_tests_cant": "Only finitely many operation histories can be executed; the claim is about every history.", "anchors": ["ttl/list.hpp: resize"]}
{"id": "C29", "title": "forward_list behaves as a sequence over every history", "statement": "After any sequence of push_front, pop_front (on non-empty), insert_after, erase_after, assign, clear, reverse, contents agree with the same operations on a mathematical sequence, without invalid memory access.", "quantifier": "every finite history", "why_tests_cant": "Only finitely many operation histories can be executed; the claim is about every history.", "anchors": ["ttl/forward_list.hpp", "ttl/slist_node.hpp"]}
{"id": "C30", "title": "forward_list splice_after moves exactly the designated elements", "statement": "splice_after(pos, other), splice_after(pos, other, it) and splice_after(pos, other, first, last) move exactly the designated elements after pos and keep the remaining elements of both lists.", "quantifier": "every pair of lists, every position, every sub-range including empty ones", "why_tests_cant": "Only finitely many operation histories can be executed; the claim is about every history.", "anchors": ["ttl/forward_list.hpp: splice_after", "ttl/slist_node.hpp: splice_after"]}
{"id": "C31", "title": "forward_list reverse reverses in place", "statement": "reverse() reverses the order reusing the same nodes.", "quantifier": "every list", "why_tests_cant": "Only finitely many operation histories can be executed; the claim is about every history.", "anchors": ["ttl/forward_list.hpp: reverse", "ttl/slist_node.hpp: reverse"]}
{"id": "C32", "title": "backward_list behaves as a sequence with constant-time push_back over every history", "statement": "After any sequence of push_front, push_back, insert_after, erase_after, pop_front, reverse, clear, contents and the back position agree with a mathematical sequence; push_back always appends.", "quantifier": "every finite history", "why_tests_cant": "Only finitely many operation histories can be executed; the claim is about every history.", "anchors": ["ttl/backward_list.hpp"]}
{"id": "C33", "title": "lazy_queue is FIFO and recycles nodes safely", "statement": "Elements leave a lazy_queue in insertion order; popped nodes are kept in an internal pool and reused by later pushes, and no value is read after its destruction nor overwritten while alive.", "quantifier": "every finite history of push_back/push_front/pop_front/roll_head/erase_after", "why_tests_cant": "Only finitely many operation histories can be executed; the claim is about every history.", "anchors": ["ttl/lazy_queue.hpp: push_back, pop_front, get_node, put_node, roll_head"]}
{"id": "C34", "title": "lazy_queue cleanup/destructor destroy every value exactly once", "statement": "cleanup() and the destructor release all pooled nodes and destroy every element value exactly once.", "quantifier": "every reachable queue", "why_tests_cant": "Double destruction is only visible through destructors with side effects in particular histories.", "anchors": ["ttl/lazy_queue.hpp: cleanup, ~lazy_queue, put_node"]}
{"id": "C35", "title": "vector behaves as a dynamic array over every history", "statement": "After any sequence of push_back, pop_back, insert, erase, resize, assign, clear, reserve, contents agree with the same operations on a mathematical sequence.", "quantifier": "every finite history whose insert/assign arguments do not alias the vector and whose erased ranges are non-empty", "why_tests_cant": "Only finitely many operation histories can be executed; the claim is about every history.", "anchors": ["ttl/vector.hpp"]}
{"id": "C36", "title": "vector respects object lifetimes", "statement": "No vector operation reads or destroys a slot holding no object, or constructs over a live object; exactly the slots [0,size) hold objects, and the destructor destroys each exactly once.", "quantifier": "every finite history", "why_tests_cant": "Lifetime violations are invisible for trivially-copyable test types.", "anchors": ["ttl/vector.hpp: insert, erase, reserve, clear"]}
{"id": "C37", "title": "vector erase of an empty range is a no-op", "statement": "erase(p, p) changes nothing.", "quantifier": "every vector, every position", "why_tests_cant": "Only finitely many operation histories can be executed; the claim is about every history.", "anchors": ["ttl/vector.hpp: erase"]}
{"id": "C38", "title": "vector insert accepts a reference to one of its own elements", "statement": "v.insert(pos, v[i]) and v.push_back(v[i]) insert a copy of the value v[i] had before the call.", "quantifier": "every vector, positions and index, with and without reallocation", "why_tests_cant": "Only finitely many operation histories can be executed; the claim is about every history.", "anchors": ["ttl/vector.hpp: insert, push_back"]}
{"id": "C39", "title": "vector reserve/capacity contract", "statement": "reserve(n) never changes the contents, leaves capacity() >= n, and afterwards insertions that keep size() <= n neither reallocate nor move elements before the insertion point.", "quantifier": "every vector, every n", "why_tests_cant": "Only finitely many operation histories can be executed; the claim is about every history.", "anchors": ["ttl/vector.hpp: reserve, capacity"]}
{"id": "C40", "title": "fixed_vector never exceeds its capacity nor touches outside its storage", "statement": "size() <= N always, every slot access is inside [0,N), exactly the slots [0,size) hold objects.", "quantifier": "every finite history, every N", "why_tests_cant": "Only finitely many operation histories can be executed; the claim is about every history.", "anchors": ["ttl/fixed_vector.hpp"]}
{"id": "C41", "title": "fixed_vector behaves as a truncating dynamic array", "statement": "push_back/insert on a fixed_vector act as on a sequence, truncated to the first N elements.", "quantifier": "every finite history, every N", "why_tests_cant": "Only finitely many operation histories can be executed; the claim is about every history.", "anchors": ["ttl/fixed_vector.hpp: insert, push_back, resize, assign"]}
{"id": "C42", "title": "fixed_vector swap exchanges contents", "statement": "swap exchanges the contents of two fixed_vectors of any sizes.", "quantifier": "every pair of fixed_vectors", "why_tests_cant": "Only finitely many operation histories can be executed; the claim is about every history.", "anchors": ["ttl/fixed_vector.hpp: swap"]}
{"id": "C43", "title": "sorted_vector_map keeps strictly sorted unique keys", "statement": "After any history of insert/operator[] the keys are strictly ascending, and find/lower_bound/operator[] agree with a dictionary.", "quantifier": "every finite history, every key", "why_tests_cant": "Only finitely many operation histories can be executed; the claim is about every history.", "anchors": ["ttl/sorted_vector_map.hpp: insert, operator[], find, lower_bound, bsearch"]}
{"id": "C44", "title": "sorted_vector_map growth stays inside its allocation", "statement": "No insertion writes outside the allocated storage.", "quantifier": "every finite history, every initial capacity", "why_tests_cant": "Only finitely many operation histories can be executed; the claim is about every history.", "anchors": ["ttl/sorted_vector_map.hpp: insert_before"]}
{"id": "C45", "title": "sorted_vector_map count reports membership", "statement": "count(k) is 1 when k is present, else 0.", "quantifier": "every reachable map, every key", "why_tests_cant": "Only finitely many operation histories can be executed; the claim is about every history.", "anchors": ["ttl/sorted_vector_map.hpp: count"]}
{"id": "C46", "title": "vector_map lookup and count", "statement": "find(k)/operator[](k) return the entry of k; count(k) returns the number of entries with key k and terminates.", "quantifier": "every vector_map, every key", "why_tests_cant": "A non-terminating call cannot be established by testing.", "anchors": ["ttl/vector_map.hpp: find, count, operator[]"]}
{"id": "C47", "title": "bitset single-bit operations touch exactly one bit", "statement": "set(i), reset(i), flip(i) change bit i as named and no other bit; test(i) reports bit i.", "quantifier": "every N, every bitset state, every i < N", "why_tests_cant": "All N and all states.", "anchors": ["ttl/bitset.hpp: set, reset, flip, test"]}
{"id": "C48", "title": "bitset set(pos, value) assigns the bit", "statement": "b.set(i, v) makes bit i equal to v.", "quantifier": "every N, state, i < N, v", "why_tests_cant": "Only finitely many operation histories can be executed; the claim is about every history.", "anchors": ["ttl/bitset.hpp: set"]}
{"id": "C49", "title": "bitset reference proxies assign one bit", "statement": "b[i] = v and b[i] = b[j] assign bit i and change no other bit.", "quantifier": "every N, state, i, j < N, v", "why_tests_cant": "Only finitely many operation histories can be executed; the claim is about every history.", "anchors": ["ttl/bitset.hpp: reference"]}
{"id": "C50", "title": "bitset whole-set operations are pointwise", "statement": "set(), reset(), flip(), ~, &=, |=, ^= act pointwise on the N bits.", "quantifier": "every N, every pair of bitsets, every bit", "why_tests_cant": "Only finitely many operation histories can be executed; the claim is about every history.", "anchors": ["ttl/bitset.hpp: operator&=, operator|=, operator^=, operator~, flip, set, reset"]}
{"id": "C51", "title": "bitset shifts", "statement": "(b << k)[i] = i >= k && b[i-k]; (b >> k)[i] = i + k < N && b[i+k].", "quantifier": "every N, b, k, i < N", "why_tests_cant": "Word-crossing shifts have unboundedly many (N, k) combinations.", "anchors": ["ttl/bitset.hpp: operator<<=, operator>>="]}
{"id": "C52", "title": "bitset queries ignore padding bits", "statement": "count/all/any/none/==/to_ulong depend only on the N logical bits.", "quantifier": "every N, every reachable state", "why_tests_cant": "Padding bits above N become dirty only in some histories.", "anchors": ["ttl/bitset.hpp: count, all, any, none, operator==, to_ulong"]}
{"id": "C53", "title": "bitset conversion between widths preserves bits", "statement": "Assigning a bitset<M> to a bitset<N> copies the first min(M,N) bits and zeroes the rest.", "quantifier": "every M, N, every source state", "why_tests_cant": "Only finitely many operation histories can be executed; the claim is about every history.", "anchors": ["ttl/bitset.hpp: bitset(const bitset<M>&), operator="]}
{"id": "C54", "title": "bitset construction from an integer or string", "statement": "bitset(v) has bit i of v as bit i; bitset(string) has bit i set iff the i-th character from the end is '1'; construction never writes outside the bitset.", "quantifier": "every N, integer, string", "why_tests_cant": "Only finitely many operation histories can be executed; the claim is about every history.", "anchors": ["ttl/bitset.hpp: bitset(unsigned long), bitset(const char*)"]}
{"id": "C55", "title": "find, find_if, find_if_not return the first match", "statement": "They return the first position satisfying the condition, or last.", "quantifier": "every valid range of every length, every value/predicate", "why_tests_cant": "Only finitely many operation histories can be executed; the claim is about every history.", "anchors": ["ttl/algorithm.hpp: find, find_if, find_if_not"]}
{"id": "C56", "title": "all_of, any_of, none_of decide their quantifiers", "statement": "They return the truth value of the bounded quantifier over the range.", "quantifier": "every valid range of every length, every value/predicate", "why_tests_cant": "Only finitely many operation histories can be executed; the claim is about every history.", "anchors": ["ttl/algorithm.hpp: all_of, any_of, none_of"]}
{"id": "C57", "title": "count and count_if count", "statement": "They return the number of matching elements, for every range with fewer than 2^31 matches.", "quantifier": "every valid range of every length, every value/predicate", "why_tests_cant": "Only finitely many operation histories can be executed; the claim is about every history.", "anchors": ["ttl/algorithm.hpp: count, count_if"]}
{"id": "C58", "title": "search finds the first occurrence of a subsequence", "statement": "search returns the first position where the pattern occurs contiguously, last if none, first for an empty pattern.", "quantifier": "every pair of ranges, with operator== or any predicate", "why_tests_cant": "Only finitely many operation histories can be executed; the claim is about every history.", "anchors": ["ttl/algorithm.hpp: search"]}
{"id": "C59", "title": "search_n finds the first run", "statement": "search_n(first,last,n,v[,pred]) returns the first position starting n consecutive elements matching v under == or pred.", "quantifier": "every range, n, value, predicate", "why_tests_cant": "Only finitely many operation histories can be executed; the claim is about every history.", "anchors": ["ttl/algorithm.hpp: search_n"]}
{"id": "C60", "title": "adjacent_find returns the first adjacent pair", "statement": "It returns the first position whose element and successor satisfy the relation, or last.", "quantifier": "every valid range of every length, every value/predicate", "why_tests_cant": "Only finitely many operation histories can be executed; the claim is about every history.", "anchors": ["ttl/algorithm.hpp: adjacent_find"]}
{"id": "C61", "title": "equal and mismatch compare element-wise", "statement": "equal decides element-wise equality of the ranges (including their lengths in the 4-iterator form); mismatch returns the first differing positions.", "quantifier": "every pair of ranges, every relation", "why_tests_cant": "Only finitely many operation histories can be executed; the claim is about every history.", "anchors": ["ttl/algorithm.hpp: equal, mismatch"]}
{"id": "C62", "title": "copy, copy_n, copy_if, copy_backward copy exactly the elements", "statement": "They write exactly the source (filtered) elements, in order, at the destination and return its end; copy is right for overlapping ranges moved left, copy_backward for ranges moved right; nothing else is written.", "quantifier": "every source/destination, including overlapping ones in the permitted direction", "why_tests_cant": "Overlap offsets are unbounded.", "anchors": ["ttl/algorithm.hpp: copy, copy_n, copy_if, copy_backward"]}
{"id": "C63", "title": "remove, remove_if compact in place", "statement": "They leave the kept elements, in order, at the front of the range and return the position after them; memory outside the range is unchanged.", "quantifier": "every valid range of every length, every value/predicate", "why_tests_cant": "Only finitely many operation histories can be executed; the claim is about every history.", "anchors": ["ttl/algorithm.hpp: remove, remove_if, remove_copy, remove_copy_if"]}
{"id": "C64", "title": "replace, transform, fill, generate write element-wise", "statement": "They write exactly the specified function of each element and nothing outside the range.", "quantifier": "every valid range of every length, every value/predicate", "why_tests_cant": "Only finitely many operation histories can be executed; the claim is about every history.", "anchors": ["ttl/algorithm.hpp: replace, replace_if, replace_copy, transform, fill, fill_n, generate"]}
{"id": "C65", "title": "reverse and reverse_copy reverse", "statement": "reverse reverses the range in place, reverse_copy writes the reversed sequence; nothing else is written.", "quantifier": "every valid range of every length, every value/predicate", "why_tests_cant": "Only finitely many operation histories can be executed; the claim is about every history.", "anchors": ["ttl/algorithm.hpp: reverse, reverse_copy"]}
{"id": "C66", "title": "swap_ranges exchanges two disjoint ranges", "statement": "Afterwards each range holds the other's old contents; nothing else changes.", "quantifier": "every pair of disjoint ranges of equal length", "why_tests_cant": "Only finitely many operation histories can be executed; the claim is about every history.", "anchors": ["ttl/algorithm.hpp: swap_ranges, iter_swap"]}
{"id": "C67", "title": "lower_bound, upper_bound, equal_range, binary_search on sorted ranges", "statement": "On a range partitioned with respect to the key they return the partition points; equal_range delimits exactly the equivalent elements; binary_search decides membership up to equivalence.", "quantifier": "every sorted range of fewer than 2^31 elements, every key, every strict weak order", "why_tests_cant": "All sizes and all duplicate patterns.", "anchors": ["ttl/algorithm.hpp: lower_bound, upper_bound, equal_range, binary_search"]}
{"id": "C68", "title": "is_sorted/is_sorted_until find the longest sorted prefix", "statement": "is_sorted_until returns the end of the longest sorted prefix; is_sorted decides sortedness.", "quantifier": "every valid range of every length, every value/predicate", "why_tests_cant": "Only finitely many operation histories can be executed; the claim is about every history.", "anchors": ["ttl/algorithm.hpp: is_sorted, is_sorted_until"]}
{"id": "C69", "title": "merge is a stable merge", "statement": "On sorted inputs the output is sorted, is a permutation of both inputs, keeps relative orders, and takes from the first range on ties.", "quantifier": "every pair of ranges, every strict weak order", "why_tests_cant": "Only finitely many operation histories can be executed; the claim is about every history.", "anchors": ["ttl/algorithm.hpp: merge"]}
{"id": "C70", "title": "min_element/max_element/minmax_element find extrema", "statement": "min_element returns the first smallest, max_element the first largest position, last for an empty range.", "quantifier": "every range, every strict weak order", "why_tests_cant": "Only finitely many operation histories can be executed; the claim is about every history.", "anchors": ["ttl/algorithm.hpp: min_element, max_element, minmax_element"]}
{"id": "C71", "title": "min/max/minmax return an extremum of the two arguments", "statement": "min returns an argument not greater than the other, max one not less than the other; minmax returns both arguments in order.", "quantifier": "every pair, every strict weak order", "why_tests_cant": "Only finitely many operation histories can be executed; the claim is about every history.", "anchors": ["ttl/algorithm.hpp: min, max, minmax"]}
{"id": "C72", "title": "list copies are deep, in order and complete", "statement": "Copy construction, construction from a range or from (n, v), operator= and assign leave the destination with exactly the source's elements in order, in new nodes; the source and every other list are unchanged.", "quantifier": "every list, every source, every previous content of the destination, the list itself as source", "why_tests_cant": "Only finitely many operation histories can be executed; the claim is about every history.", "anchors": ["ttl/list.hpp: list(const list&), operator=, assign"]}
{"id": "C73", "title": "list operator== compares contents", "statement": "a == b holds iff the two lists hold element-wise equal sequences of the same length (and operator!= is its negation); neither list changes.", "quantifier": "every pair of lists, every element equality", "why_tests_cant": "Only finitely many operation histories can be executed; the claim is about every history.", "anchors": ["ttl/list.hpp: operator=="]}
{"id": "C74", "title": "list memory accounting", "statement": "After any history the allocated nodes are exactly the elements of the existing lists (no leak), no node is in two lists, and the destructor frees exactly the nodes of the destroyed list.", "quantifier": "every finite history over any number of lists", "why_tests_cant": "Leaks depend on the whole history.", "anchors": ["ttl/list.hpp: ~list, clear, pop_front, pop_back, erase, remove_if, unique"]}
{"id": "C75", "title": "list elements never move", "statement": "Every operation leaves each element that it does not remove at its address with its value, in one of the lists, so iterators, pointers and references to it stay valid.", "quantifier": "every reachable memory, every operation, every element", "why_tests_cant": "Iterator stability must hold for every history.", "anchors": ["ttl/list.hpp: insert, erase, splice, merge, swap, reverse, unique, remove_if"]}
{"id": "C76", "title": "forward_list copies are deep, in order and complete", "statement": "Copy construction, construction from a range or from (n, v), operator= and assign leave the destination with exactly the source's elements in order, in new nodes; the source and every other list are unchanged.", "quantifier": "every list, every source, every previous content of the destination, the list itself or one of its elements as source", "why_tests_cant": "Only finitely many operation histories can be executed; the claim is about every history.", "anchors": ["ttl/forward_list.hpp: forward_list(const forward_list&), operator=, assign"]}
{"id": "C77", "title": "forward_list operator== compares contents", "statement": "a == b holds iff the two lists hold element-wise equal sequences of the same length, and a != b is its negation; neither list changes.", "quantifier": "every pair of lists, every element equality", "why_tests_cant": "Only finitely many operation histories can be executed; the claim is about every history.", "anchors": ["ttl/forward_list.hpp: operator==, operator!="]}
{"id": "C78", "title": "forward_list memory accounting and element stability", "statement": "After any history the allocated nodes are exactly the elements of the existing lists, no node is in two lists, the destructor frees exactly the nodes of its list, and an operation that does not remove an element leaves it at its address with its value.", "quantifier": "every finite history over any number of lists", "why_tests_cant": "Leaks and dangling iterators depend on the whole history.", "anchors": ["ttl/forward_list.hpp: ~forward_list, clear, insert_after, erase_after, splice_after, swap"]}
{"id": "C79", "title": "forward_list swap exchanges contents", "statement": "a.swap(b) exchanges the contents of the two lists, whatever their sizes (also empty), without touching elements; a.swap(a) changes nothing.", "quantifier": "every pair of lists", "why_tests_cant": "Only finitely many operation histories can be executed; the claim is about every history.", "anchors": ["ttl/forward_list.hpp: swap"]}
{"id": "C80", "title": "for_each and accumulate visit every element once, in order", "statement": "for_each applies the function to each element in order and returns it; accumulate returns the left fold of the range from the initial value; nothing is written.", "quantifier": "every valid range of every length, every value/predicate", "why_tests_cant": "Only finitely many operation histories can be executed; the claim is about every history.", "anchors": ["ttl/algorithm.hpp: for_each", "ttl/numeric.hpp: accumulate"]}
{"id": "C81", "title": "backward_list copies are deep, in order and complete", "statement": "Copy construction, construction from a range or from (n, v), operator= and assign leave the destination with exactly the source's elements in order, in new nodes, with empty(), back() and before_end() right; the source and every other list are unchanged.", "quantifier": "every list, every source, every previous content of the destination, the list itself or one of its elements as source", "why_tests_cant": "Only finitely many operation histories can be executed; the claim is about every history.", "anchors": ["ttl/backward_list.hpp: backward_list(const backward_list&), operator=, assign"]}
{"id": "C82", "title": "backward_list operator== compares contents", "statement": "a == b holds iff the two lists hold element-wise equal sequences of the same length, and a != b is its negation; neither list changes.", "quantifier": "every pair of lists, every element equality", "why_tests_cant": "Only finitely many operation histories can be executed; the claim is about every history.", "anchors": ["ttl/backward_list.hpp: operator==, operator!="]}
{"id": "C83", "title": "backward_list memory accounting and element stability", "statement": "After any history the allocated nodes are exactly the elements of the existing lists, no node is in two lists, the destructor frees exactly the nodes of its list, and an operation that does not remove an element leaves it at its address with its value.", "quantifier": "every finite history over any number of lists", "why_tests_cant": "Leaks and dangling iterators depend on the whole history.", "anchors": ["ttl/backward_list.hpp: ~backward_list, clear, insert_after, erase_after, swap"]}
{"id": "C84", "title": "backward_list swap exchanges contents and back positions", "statement": "a.swap(b) exchanges the contents of the two lists, whatever their sizes (also empty), and both stay usable; a.swap(a) changes nothing.", "quantifier": "every pair of lists", "why_tests_cant": "Only finitely many operation histories can be executed; the claim is about every history.", "anchors": ["ttl/backward_list.hpp: swap"]}
{"id": "C85", "title": "lazy_queue memory is bounded by its high-water mark", "statement": "A lazy_queue holds exactly as many nodes as it ever had elements at a time; a later history that does not exceed that number allocates and releases nothing; what is allocated is exactly the queues, their elements and their pooled nodes, and no node is shared.", "quantifier": "every finite history on a new queue, every reachable memory with any number of queues", "why_tests_cant": "Allocation behaviour over all histories is a claim about unboundedly many executions.", "anchors": ["ttl/lazy_queue.hpp: get_node, put_node"]}
{"id": "C86", "title": "lazy_queue copies are independent", "statement": "The copy constructor and operator= give the destination the values of the source, and the source and all other queues stay as they are; lazy_queue(n, v) holds n copies of v.", "quantifier": "every reachable memory, every pair of queues", "why_tests_cant": "Aliasing between copies shows only in particular later histories.", "anchors": ["ttl/lazy_queue.hpp: lazy_queue(const lazy_queue &), operator=, lazy_queue(size_type, const T &)"]}
{"id": "C87", "title": "lazy_queue swap exchanges contents", "statement": "a.swap(b) exchanges the elements of the two queues without allocating, copying or invalidating iterators, and both remain fully usable.", "quantifier": "every pair of queues of any sizes in every reachable memory", "why_tests_cant": "Boundary sizes times later histories cannot be enumerated.", "anchors": ["ttl/lazy_queue.hpp: swap"]}
{"id": "C88", "title": "lazy_queue elements never move", "statement": "Operations other than removals and overwrites leave every element at its address with its value; roll_head moves the first element behind the last in its node.", "quantifier": "every reachable memory and every call", "why_tests_cant": "Iterator stability is a claim about all histories.", "anchors": ["ttl/lazy_queue.hpp: roll_head, insert_after, push_front, push_back"]}
{"id": "C89", "title": "vector copies are deep, in order and complete", "statement": "Copy construction, construction from (n), (n, v) or a range, operator= and assign leave the destination with exactly the specified elements in order, in its own block; the source and every other vector are unchanged.", "quantifier": "every vector, every source, every previous content of the destination, the vector itself or its own elements as source", "why_tests_cant": "Only finitely many operation histories can be executed; the claim is about every history.", "anchors": ["ttl/vector.hpp: vector(const vector&), vector(size_type), vector(first, last), operator=, assign"]}
{"id": "C90", "title": "vector swap exchanges contents without moving elements", "statement": "a.swap(b) exchanges contents and capacity; the elements stay at their addresses; a.swap(a) changes nothing.", "quantifier": "every pair of vectors in every reachable memory", "why_tests_cant": "Only finitely many operation histories can be executed; the claim is about every history.", "anchors": ["ttl/vector.hpp: swap"]}
{"id": "C91", "title": "vector operator== compares contents", "statement": "a == b holds iff both hold element-wise equal sequences of the same length, != is the negation; neither vector changes.", "quantifier": "every pair of vectors, every element equality", "why_tests_cant": "Only finitely many operation histories can be executed; the claim is about every history.", "anchors": ["ttl/vector.hpp: operator==, operator!="]}
{"id": "C92", "title": "vector insert and erase return the right iterator", "statement": "insert returns an iterator to the first inserted element (pos if none), erase one to the element after the erased range, valid in the possibly reallocated vector.", "quantifier": "every vector, position and count, every non-empty range to erase (the empty one is C37's), with and without reallocation", "why_tests_cant": "Only finitely many operation histories can be executed; the claim is about every history.", "anchors": ["ttl/vector.hpp: insert, erase, insert_values"]}
{"id": "C93", "title": "vectors are independent", "statement": "No call on one vector changes, moves or destroys elements of another, even if that other one supplies the arguments.", "quantifier": "every reachable memory with any number of vectors, every call", "why_tests_cant": "Interference is a claim about all histories of all containers.", "anchors": ["ttl/vector.hpp: vector"]}
{"id": "C94", "title": "fixed_vector erase and own-element arguments", "statement": "erase(first, last) removes exactly [first, last) for every valid range, also an empty one, and returns the position after it; push_back and insert of an element of the vector itself insert the value it had before the call.", "quantifier": "every fixed_vector, range, position, count and element", "why_tests_cant": "Only finitely many operation histories can be executed; the claim is about every history.", "anchors": ["ttl/fixed_vector.hpp: erase, insert, insert_values, push_back"]}
{"id": "C95", "title": "fixed_vector copies are deep, in order and complete", "statement": "Copy construction, construction from (n), (n, v) or a range, operator= and assign leave the destination with exactly the specified elements in order (the first N of them); the source and every other fixed_vector are unchanged.", "quantifier": "every fixed_vector, every source, every previous content of the destination, the fixed_vector itself or its own elements as source", "why_tests_cant": "Only finitely many operation histories can be executed; the claim is about every history.", "anchors": ["ttl/fixed_vector.hpp: fixed_vector(const fixed_vector&), operator=, assign"]}
{"id": "C96", "title": "fixed_vector operator== compares contents", "statement": "a == b holds iff both hold element-wise equal sequences of the same length, != is the negation; neither changes.", "quantifier": "every pair of fixed_vectors, every element equality", "why_tests_cant": "Only finitely many operation histories can be executed; the claim is about every history.", "anchors": ["ttl/fixed_vector.hpp: operator==, operator!="]}
{"id": "C97", "title": "fixed_vectors are independent", "statement": "No call on one fixed_vector changes or destroys elements of another, even if that other one supplies the arguments.", "quantifier": "every reachable memory with any number of fixed_vectors, every call", "why_tests_cant": "Interference is a claim about all histories of all containers.", "anchors": ["ttl/fixed_vector.hpp: fixed_vector"]}
{"id": "C98", "title": "sorted_vector_map searches answer by key", "statement": "find(k) is the position of k or end(); lower_bound(k) has exactly the smaller keys before it, upper_bound(k) exactly the keys not greater; equal_range(k) is the pair of lower_bound(k) and upper_bound(k), so it spans exactly the entry of k; at(k) refers to the entry of a present key.", "quantifier": "every reachable map with fewer than 2^32 elements, every key", "why_tests_cant": "Only finitely many operation histories can be executed; the claim is about every history.", "anchors": ["ttl/sorted_vector_map.hpp: find, lower_bound, upper_bound, equal_range, at, bsearch"]}
{"id": "C99", "title": "sorted_vector_map insert and operator[] return the entry", "statement": "insert(k, v) returns an iterator to the entry of k and whether it was inserted; it leaves a present entry alone. m[k] refers to the entry of k, created with T() if absent. Nothing else in the map changes.", "quantifier": "every reachable map with fewer than 2^32 elements, every key and value, with and without growing", "why_tests_cant": "Only finitely many operation histories can be executed; the claim is about every history.", "anchors": ["ttl/sorted_vector_map.hpp: insert, operator[], insert_before"]}
{"id": "C100", "title": "sorted_vector_map references survive growth", "statement": "A reference to the value of a key keeps referring to the value of that key through every later call except clear() and the destructor of its map.", "quantifier": "every reachable map with fewer than 2^32 - 1 elements, every key, every call on any map", "why_tests_cant": "Only finitely many operation histories can be executed; the claim is about every history.", "anchors": ["ttl/sorted_vector_map.hpp: insert_before, operator[]"]}
{"id": "C101", "title": "sorted_vector_map copies are deep", "statement": "The copy constructor makes a map with the same entries that shares no storage with its source; the source and all other maps are unchanged.", "quantifier": "every reachable memory, every map", "why_tests_cant": "Only finitely many operation histories can be executed; the claim is about every history.", "anchors": ["ttl/sorted_vector_map.hpp: sorted_vector_map(const sorted_vector_map&)"]}
{"id": "C102", "title": "sorted_vector_maps are independent", "statement": "No call on one map changes the entries of another.", "quantifier": "every reachable memory with any number of maps, every call", "why_tests_cant": "Interference is a claim about all histories of all containers.", "anchors": ["ttl/sorted_vector_map.hpp: sorted_vector_map"]}
{"id": "C103", "title": "vector_map insert and operator[] return the entry", "statement": "insert((k, v)) of an absent key appends the entry and returns its position and true, also when the argument is an entry of another map; of a present key it changes nothing and returns the first entry of k and false. m[k] refers to the first entry of k, appended with T() if absent. Nothing else changes.", "quantifier": "every reachable map (keys may repeat), every key and value, with and without reallocation", "why_tests_cant": "Only finitely many operation histories can be executed; the claim is about every history.", "anchors": ["ttl/vector_map.hpp: insert, operator[], find_key", "ttl/vector.hpp: insert"]}
{"id": "C104", "title": "vector_map with unique keys is a dictionary", "statement": "Any history of insert, operator[], assignment through operator[] and at, erase(find(k)) and clear has the results of the same history on a finite map from keys to values: iteration gives each entry exactly once, find and at answer accordingly; other maps do not change.", "quantifier": "every finite history of any length on a map with unique keys in any reachable memory", "why_tests_cant": "Only finitely many operation histories can be executed; the claim is about every history.", "anchors": ["ttl/vector_map.hpp: insert, operator[], at, find", "ttl/vector.hpp: erase, clear"]}
{"id": "C105", "title": "array operations agree with fixed-length sequences", "statement": "Any history of fill, element assignment, swap and = over any arrays, with elements of arrays (also of the same one) as arguments and with self-swap and self-assignment, returns normally and leaves every array with the contents of the same history on sequences; size, empty, iteration, operator[], front and back agree; nothing outside the arrays changes; array<T, 0> works and has no elements.", "quantifier": "every finite history over any number of arrays of any sizes", "why_tests_cant": "Only finitely many operation histories can be executed; the claim is about every history.", "anchors": ["ttl/array.hpp: fill, swap, begin, end, operator[], front, back", "ttl/algorithm.hpp: fill_n, swap_ranges"]}
{"id": "C106", "title": "array operator== compares contents", "statement": "a == b holds iff all elements compare equal; != is the negation; nothing changes.", "quantifier": "every pair of arrays of one type, every element equality", "why_tests_cant": "Only finitely many operation histories can be executed; the claim is about every history.", "anchors": ["ttl/array.hpp: operator==, operator!=", "ttl/algorithm.hpp: equal"]}
{"id": "C107", "title": "pair swap, assignment and comparison", "statement": "p.swap(q) exchanges both members, also for p and q the same object; p = q copies (or converts) both members; p == q iff both members are equal; no other pair changes.", "quantifier": "every pair of pairs in every memory, every element type", "why_tests_cant": "Only finitely many operation histories can be executed; the claim is about every history.", "anchors": ["ttl/utility.hpp: pair, swap, operator=="]}
{"id": "C108", "title": "distance is the number of elements between two iterators", "statement": "distance(first, last) is last - first, and advance(first, distance(first, last)) is last.", "quantifier": "all random access ranges of any length", "why_tests_cant": "Ranges beyond INT_MAX cannot be exercised in practice.", "anchors": ["ttl/utility.hpp: distance, advance"]}
{"id": "C109", "title": "cv and reference traits", "statement": "is_const/is_volatile tell whether the type itself is qualified; remove_const, remove_volatile, remove_cv remove exactly the top-level qualifiers, also of arrays; remove_reference removes exactly the reference. All of them compile for every type.", "quantifier": "every C++ type: fundamental, class, pointer, member pointer, array, function, reference, with any nesting and qualification", "why_tests_cant": "There are infinitely many types.", "anchors": ["ttl/type_traits.hpp: is_const, is_volatile, remove_const, remove_volatile, remove_cv, remove_reference"]}
{"id": "C110", "title": "type classification traits", "statement": "is_integral, is_floating_point, is_void, is_pointer, is_array, is_signed, is_unsigned and the composite categories hold for exactly the qualified versions of the listed types; the primary categories are disjoint; every integral type except bool is signed or unsigned, not both.", "quantifier": "every C++ type", "why_tests_cant": "There are infinitely many types.", "anchors": ["ttl/type_traits.hpp: is_integral, is_floating_point, is_void, is_pointer, is_array, is_signed, is_unsigned, is_arithmetic, is_fundamental, is_scalar, is_same"]}
{"id": "C111", "title": "map/set with an equivalence-inducing comparator", "statement": "With a comparator that is a strict weak order (unequal keys may be equivalent), map and set hold at most one key of each equivalence class: insert(v) refuses iff an equivalent key is present, find/count/lower_bound answer up to equivalence, iteration is ascending and nothing is corrupted.", "quantifier": "every strict weak order, every history of calls on any number of maps/sets", "why_tests_cant": "Only finitely many operation histories can be executed; the claim is about every history.", "anchors": ["ttl/rbtree.hpp: find, insert_unique, lower_bound, erase"]}
{"id": "C112", "title": "map/set arguments may be elements of the container", "statement": "Keys and values passed by reference may be elements of the same map/set: erase(*it), insert(*it), find(it->first), m[it->first] behave as with a copy of the argument made before the call.", "quantifier": "every reachable memory, every map/set, every own element as the argument", "why_tests_cant": "Depends on when the code reads its argument relative to freeing nodes, for every tree shape.", "anchors": ["ttl/rbtree.hpp: erase, remove, insert_unique, find", "ttl/map.hpp: operator[], erase", "ttl/set.hpp: erase"]}
{"id": "C113", "title": "map::at refers to the value of a present key", "statement": "m.at(k) of a present key refers to its value: reading gives the value and changes nothing, assigning changes exactly that value. at of an absent key has a defined outcome (it does not access invalid memory).", "quantifier": "every reachable memory, every map and key", "why_tests_cant": "Only finitely many operation histories can be executed; the claim is about every history.", "anchors": ["ttl/map.hpp: at"]}
{"id": "C114", "title": "list merge with itself changes nothing", "statement": "a.merge(a) on a sorted list returns and leaves the list as it is (the requirement of std::list).", "quantifier": "every sorted list, every strict weak order", "why_tests_cant": "Whether the relinking loop comes back depends on the pattern of equal elements of an unbounded list.", "anchors": ["ttl/list.hpp: merge"]}
{"id": "C115", "title": "map/set range insert and construction from container iterators", "statement": "insert(first, last) and the range constructor with iterators of a map/set add exactly the elements of the range whose keys are absent, keep the existing elements in place, and leave the source unchanged; with the container's own iterators nothing changes, also while its nodes are being walked.", "quantifier": "every reachable memory, every pair of containers, every range of iterators", "why_tests_cant": "Only finitely many operation histories can be executed; the claim is about every history.", "anchors": ["ttl/map.hpp: insert(first, last), map(first, last)", "ttl/set.hpp: insert(first, last), set(first, last)", "ttl/rbtree.hpp: insert_unique"]}
{"id": "C116", "title": "algorithms taking values by reference accept elements of the range", "statement": "fill, fill_n, replace, replace_if, replace_copy, remove, remove_copy called with a reference to an element of the range itself do what they do with a copy of that value.", "quantifier": "all ranges of any length, every position of the argument in the range or outside it", "why_tests_cant": "Depends on where in the range the referenced element is overwritten.", "anchors": ["ttl/algorithm.hpp: fill, fill_n, replace, replace_if, replace_copy, remove, remove_copy"]}
{"id": "C117", "title": "container iterators are valid algorithm ranges", "statement": "In every state a client program can reach, begin() and end() of list, forward_list, backward_list, lazy_queue, vector, fixed_vector, vector_map, map, set and sorted_vector_map delimit a valid range presenting the container's elements in order: ++ from begin() meets each element once and ends at end(), * reads it without changing anything, the iterators are pairwise different; those of vector and fixed_vector support + and -.", "quantifier": "every reachable memory with any number of containers, every container", "why_tests_cant": "Every algorithm relies on this for every history of the container.", "anchors": ["ttl/list.hpp: begin, end, list_iterator", "ttl/forward_list.hpp: begin, end", "ttl/backward_list.hpp: begin, end", "ttl/lazy_queue.hpp: begin, end", "ttl/vector.hpp: begin, end", "ttl/fixed_vector.hpp: begin, end", "ttl/vector_map.hpp: vector_map", "ttl/rbtree.hpp: rbtree_iterator", "ttl/sorted_vector_map.hpp: iterator"]}
{"id": "C118", "title": "algorithms call functors exactly as documented", "statement": "find_if, find_if_not, all_of, any_of, none_of, equal and mismatch call the functor on the elements (pairs) in order and stop at the first that decides; count_if, copy_if, remove_copy_if, replace_if, replace_copy_if, remove_if, transform and generate call it exactly once for each element, in order; lower_bound and upper_bound compare at most log2(n)+1 times, binary_search once more, equal_range twice as often, merge at most n+m-1 times. This holds for functors with state, too.", "quantifier": "all iterator types, all valid ranges of any length, all functors with any state", "why_tests_cant": "Counts and order of calls are claims about every input length and every functor.", "anchors": ["ttl/algorithm.hpp"]}
{"id": "C119", "title": "modifying algorithms work through the iterators of every container", "statement": "fill, fill_n, generate, iota, replace_if, transform, remove_if, copy, copy_n, copy_if, remove_copy_if, replace_copy_if, swap_ranges, merge and - for bidirectional iterators - reverse, reverse_copy and copy_backward, applied to iterators of any container (the whole or a part, two different containers, or containers of different kinds), give the range the specified values, return the specified iterator, keep the number, the order and the addresses of the elements, and change no other container; the containers can be used afterwards as before.", "quantifier": "every reachable memory, every container, every part of it, every functor", "why_tests_cant": "Only finitely many operation histories can be executed; the claim is about every history.", "anchors": ["ttl/algorithm.hpp", "ttl/list.hpp: list_iterator", "ttl/vector.hpp: begin, end", "ttl/forward_list.hpp: begin, end"]}
{"id": "C120", "title": "sorted_vector_map is memory safe with any comparator", "statement": "Whatever the comparator answers (it may be inconsistent), every call returns normally, no memory is accessed outside the map's storage or leaked, size and iteration agree, insert adds at most the given entry and returns an iterator to an entry with that key, find returns end() or an iterator to an entry with an equal key, and other maps do not change.", "quantifier": "every comparator function, every history of any length over any number of maps, any number of elements", "why_tests_cant": "No test can try every comparator.", "anchors": ["ttl/sorted_vector_map.hpp: insert, operator[], at, find, bsearch, insert_before, equal_range, lower_bound, upper_bound, clear"]}
{"id": "C121", "title": "sorted_vector_map with an equivalence-inducing comparator", "statement": "With a comparator that is a strict weak order (unequal keys may be equivalent), the map holds at most one key of each equivalence class; find finds every key that is present; iteration is ascending; lower_bound separates the smaller from the not smaller.", "quantifier": "every strict weak order, every history of calls on any number of maps", "why_tests_cant": "Only finitely many operation histories can be executed; the claim is about every history.", "anchors": ["ttl/sorted_vector_map.hpp: bsearch, find, insert, lower_bound"]}
{"id": "C122", "title": "sorted_vector_map lookups are logarithmic", "statement": "A lookup in a map with fewer than 2^d elements examines at most d of them (and so compares at most d times).", "quantifier": "every reachable map of any size, every key, every comparator", "why_tests_cant": "A bound on the work for all sizes.", "anchors": ["ttl/sorted_vector_map.hpp: bsearch, find, lower_bound"]}
{"id": "C123", "title": "map and set with any comparator", "statement": "Whatever the comparator answers (it may be inconsistent), every call on map and set returns normally; iteration visits finitely many distinct elements and backwards the same in reverse; insert adds at most the given value in one place or answers an element with an equal key; find answers end() or an element with that key, lower_bound end() or an element not less; erase removes exactly one element with that key or nothing; lookups, insert and erase stay logarithmic; other containers do not change and nothing leaks.", "quantifier": "every comparator function, every history of calls on any number of containers of any size", "why_tests_cant": "No test can try every comparator.", "anchors": ["ttl/rbtree.hpp: insert_unique, find, lower_bound, remove, delete_min, begin, end", "ttl/map.hpp: map", "ttl/set.hpp: set"]}
{"id": "C124", "title": "range arguments may be iterators of lists", "statement": "insert(pos, first, last), insert_after(pos, first, last), assign(first, last) and the range constructors of list, forward_list, backward_list and lazy_queue with iterators of any part of a list copy exactly the values of that part, in order, into new elements at the position; the elements that were there stay, the source and all other lists are unchanged. The part may belong to the list that is inserted into, and is then copied as it was before the call.", "quantifier": "every reachable memory, every two lists or the same list twice, every position and every part", "why_tests_cant": "Reading and inserting alternate in the loop; whether the inserted elements are met again depends on the position relative to the range.", "anchors": ["ttl/list.hpp: insert, assign, list(first, last)", "ttl/forward_list.hpp: insert_after, assign, forward_list(first, last)", "ttl/backward_list.hpp: insert_after, assign, backward_list(first, last)", "ttl/lazy_queue.hpp: insert_after"]}
{"id": "C125", "title": "function objects order containers and algorithms", "statement": "For a type with a total order and agreeing operators, less and greater meet the requirements on comparators; of less, equal_to and greater exactly one holds for any two objects and not_equal_to is the complement of equal_to. With greater, map, set and sorted_vector_map iterate with strictly descending keys, lower_bound/upper_bound/binary_search work on descending ranges, and list merge merges descending lists.", "quantifier": "every totally ordered type, every reachable container, every range and value", "why_tests_cant": "The order laws range over all triples of objects and the containers over all histories.", "anchors": ["ttl/functional.hpp: less, greater, equal_to, not_equal_to", "ttl/utility.hpp: select_first, select_second, select_same"]}
{"id": "C126", "title": "list: exceptions leave every list intact", "statement": "If an allocation, an element copy, a comparison or a predicate throws inside a call on list, no undefined behaviour occurs, every list is intact afterwards and nothing leaks: a single insertion has no effect at all; an insertion of several elements has inserted the first ones; remove, remove_if and unique have dealt with the first elements; merge has moved some elements of the other list, in order, and lost none. Programs in which any calls throw at any points behave like programs without exceptions that make such calls.", "quantifier": "every reachable memory, every call that is not a constructor and every point where it may throw; every history in which calls throw", "why_tests_cant": "The exception can appear at any of unboundedly many points of each call, and the histories continue after it.", "anchors": ["ttl/list.hpp: push_front, push_back, insert, assign, resize, remove, remove_if, unique, merge, operator="]}
{"id": "C127", "title": "list: a constructor that throws leaves no trace, assignment is all or nothing", "statement": "If a constructor of list throws, everything it allocated is freed again and all other lists are unchanged. If operator= throws, the list still has its old elements.", "quantifier": "every reachable memory, every source and every point where the constructor or assignment may throw", "why_tests_cant": "One would have to throw at every element of every source and then look for leaked nodes.", "anchors": ["ttl/list.hpp: list(const list &), list(n, value), list(first, last), ~list, operator="]}
{"id": "C128", "title": "vector: exceptions leave every vector usable", "statement": "If an allocation or an element copy throws inside a call on vector, the call has no effect (strong guarantee) or at least leaves a vector that can be read, cleared and destroyed; all other vectors are unchanged, and nothing leaks. A vector whose reallocating call throws keeps its elements, its capacity and its block.", "quantifier": "every reachable memory, every call and every point where it may throw; every history in which calls throw and the program goes on", "why_tests_cant": "The exception can appear at the copy of each of unboundedly many elements, and its damage shows up in later calls.", "anchors": ["ttl/vector.hpp: reserve, insert_values, push_back, resize, erase, operator=, assign, vector(const vector &), vector(n, value), vector(first, last), create"]}
{"id": "C129", "title": "map/set: exceptions leave every container usable", "statement": "If an allocation, an element copy, a comparison or an element assignment throws inside a call on map or set, no undefined behaviour occurs, nothing leaks and every container can be used afterwards: insert has no effect at all; insert of a range has inserted the first elements; erase has erased nothing, and all iterators remain valid; a constructor leaves no trace; an assignment leaves the destination with its old elements or empty. Later calls of any kind behave as on a container with those elements.", "quantifier": "every reachable memory, every call and every point where it may throw; every history in which calls throw and the program goes on", "why_tests_cant": "The exception can appear at any comparison on the way down an arbitrary tree, and the damage shows up only in later calls.", "anchors": ["ttl/rbtree.hpp: insert_unique, remove, assign, preorder_copy, find, lower_bound", "ttl/map.hpp: map, insert, erase, operator=, iterator", "ttl/set.hpp: set, insert, erase, operator=, iterator"]}
{"id": "C130", "title": "sorted_vector_map: exceptions leave every map usable", "statement": "If an allocation, the copy of a pair, the key's == or the comparator throws inside a call on sorted_vector_map, no undefined behaviour occurs, nothing leaks and every map can be used afterwards: insert and operator[] have no effect at all, a copy constructor leaves no trace, lookups change nothing, and all other maps are unchanged. Later calls of any kind behave as on maps with those elements.", "quantifier": "every reachable memory, every comparator, every call and every point where it may throw; every history in which calls throw and the program goes on", "why_tests_cant": "The exception can appear at any comparison of the search, after any shift of unboundedly many pointers, and its damage shows up in later calls.", "anchors": ["ttl/sorted_vector_map.hpp: insert, operator[], insert_before, bsearch, sorted_vector_map(const sorted_vector_map &), ~sorted_vector_map, find, lower_bound, upper_bound"]}
{"id": "C131", "title": "forward_list: exceptions leave every list intact", "statement": "If an allocation or an element copy throws inside a call on forward_list that is not a constructor, no undefined behaviour occurs, every list is intact afterwards and nothing leaks: push_front and insert_after of one element have no effect at all; insert_after of several elements has inserted the first ones at the position; an assignment has dropped the old elements and copied the first new ones; all other lists are unchanged. Programs in which any calls throw at any points behave like programs without exceptions that make such calls.", "quantifier": "every reachable memory, every call that is not a constructor and every point where it may throw; every history in which calls throw", "why_tests_cant": "The exception can appear at any of unboundedly many elements of each call, and the histories continue after it.", "anchors": ["ttl/forward_list.hpp: push_front, insert_after, assign, operator="]}
{"id": "C132", "title": "forward_list, backward_list: a constructor that throws leaves no trace, assignment is all or nothing", "statement": "If a constructor of forward_list or backward_list throws, everything it allocated is freed again and all other lists are unchanged. If operator= throws, the list still has its old elements.", "quantifier": "every reachable memory, every source and every point where the constructor or assignment may throw", "why_tests_cant": "One would have to throw at every element of every source and then look for leaked nodes.", "anchors": ["ttl/forward_list.hpp: forward_list(const forward_list &), forward_list(n, value), forward_list(first, last), ~forward_list, operator=", "ttl/backward_list.hpp: backward_list(const backward_list &), backward_list(n, value), backward_list(first, last), ~backward_list, operator="]}
{"id": "C133", "title": "backward_list: exceptions leave every list usable", "statement": "If an allocation or an element copy throws inside a call on backward_list that is not a constructor, no undefined behaviour occurs, nothing leaks, and every list is intact afterwards, its before_end() included: push_front, push_back and insert_after of one element have no effect at all; insert_after of several elements has inserted the first ones at the position, so that a following push_back appends; all other lists are unchanged.", "quantifier": "every reachable memory, every call that is not a constructor and every point where it may throw; every history in which calls throw", "why_tests_cant": "The exception can appear at any of unboundedly many elements of each call, and the damage shows up in later calls.", "anchors": ["ttl/backward_list.hpp: push_front, push_back, insert_after, assign, operator=, before_end"]}
{"id": "C134", "title": "lazy_queue: an insertion or constructor that throws has no effect", "statement": "If an allocation or an element copy throws inside push_front, push_back, insert_after of one element or a constructor of lazy_queue, no undefined behaviour occurs, the queue has its old elements, all other queues are unchanged and nothing leaks. The program can go on with all queues, through any number of exceptions.", "quantifier": "every reachable memory, every queue with any pool of unused nodes, every point where the call may throw; every history in which calls throw", "why_tests_cant": "Whether a node comes from the pool or the allocator depends on the history; the exception can appear at any element of a constructor.", "anchors": ["ttl/lazy_queue.hpp: get_node, push_front, push_back, insert_after, lazy_queue(const lazy_queue &), lazy_queue(n, value)"]}
{"id": "C135", "title": "lazy_queue: an insertion of several elements or assignment that throws leaves the queue usable", "statement": "If an allocation or an element copy throws inside insert_after of several elements or operator= of lazy_queue, no undefined behaviour occurs, nothing leaks, all other queues are unchanged and the queue is in order: insert_after has inserted the first elements at the position, operator= has no effect; back() is the last element and a following push_back appends.", "quantifier": "every reachable memory, every queue, every position, every point where the call may throw; every history in which calls throw", "why_tests_cant": "The exception can appear at any of unboundedly many elements, and the damage shows up only in later calls.", "anchors": ["ttl/lazy_queue.hpp: insert_after, operator=, back, push_back, pop_front, clear, ~lazy_queue"]}
{"id": "C136", "title": "fixed_vector: exceptions leave every fixed_vector usable", "statement": "If an element copy throws inside a call on fixed_vector that is not a constructor, no undefined behaviour occurs, every fixed_vector can be read, cleared and destroyed afterwards, no element is lost from both sides of a swap, and all other fixed_vectors are unchanged. Calls that copy no element do not throw. The program can go on with all fixed_vectors, through any number of exceptions.", "quantifier": "every capacity, every reachable memory, every call and every point where it may throw; every history in which calls throw and the program goes on", "why_tests_cant": "The exception can appear at the copy of each of unboundedly many elements, and its damage shows up in later calls.", "anchors": ["ttl/fixed_vector.hpp: push_back, insert, insert_values, erase, resize, assign, operator=, swap, clear, ~fixed_vector"]}
{"id": "C137", "title": "fixed_vector: a constructor that throws leaves no trace", "statement": "If a constructor of fixed_vector throws, the elements it made are destroyed again and all other fixed_vectors are unchanged.", "quantifier": "every capacity, every reachable memory, every source and every point where the constructor may throw", "why_tests_cant": "One would have to throw at every element of every source and count the objects.", "anchors": ["ttl/fixed_vector.hpp: fixed_vector(const fixed_vector &), fixed_vector(n, value), fixed_vector(first, last), ~fixed_vector"]}
{"id": "C138", "title": "vector_map: exceptions leave every map usable", "statement": "If an allocation, the copy of a pair, the key's ==, T() or an assignment throws inside a call on vector_map, no undefined behaviour occurs, nothing leaks and every map can be used afterwards: lookups, insert, operator[] and erase have no effect at all, m[k] = v has at most added (k, T()), and all other maps are unchanged. Later calls of any kind behave as on maps with those elements.", "quantifier": "every reachable memory, every call of vector_map and of vector and every point where it may throw; every history in which calls throw and the program goes on", "why_tests_cant": "The exception can appear at any of unboundedly many comparisons and copies, and its damage shows up in later calls.", "anchors": ["ttl/vector_map.hpp: insert, operator[], at, find, count, find_key", "ttl/vector.hpp: insert_values, erase, ~vector"]}
{"id": "C139", "title": "map/set operator== compares contents", "statement": "a == b holds iff the two containers have the same number of elements and corresponding elements, in iteration order, compare equal under the elements' operator== (whatever it is); a != b is its negation; neither container changes.", "quantifier": "every reachable memory, every two maps or sets, or the same one twice, every element operator==", "why_tests_cant": "The iterators walk two trees of arbitrary, different shapes at the same time.", "anchors": ["ttl/map.hpp: operator==, operator!=", "ttl/set.hpp: operator==, operator!=", "ttl/algorithm.hpp: equal"]}
{"id": "C140", "title": "vector requests near and above max_size()", "statement": "With size_type, difference_type, sizeof(T) and addresses of a real machine, a request (construction, insert, resize, reserve, assign) that can be satisfied does what it does with unlimited numbers and gets storage for every element; a request for more than max_size() elements is refused or leaves the vector as it was, and never touches memory outside the vector's storage.", "quantifier": "every modulus of size_type, every sizeof(T), every placement of blocks, every reachable memory, every request", "why_tests_cant": "The interesting sizes cannot be allocated in a test, and depend on the word size, sizeof(T) and the addresses the allocator hands out.", "anchors": ["ttl/vector.hpp: max_size, reserve, insert_values, insert, resize, assign, vector(n), vector(n, value)"]}
{"id": "C141", "title": "vector push_back is amortized constant", "statement": "Appending n elements to a vector by push_back makes a number of allocations and element copies that is at most a constant times n (plus the size of the vector). After reserve(size() + n), n push_backs make n copies, allocate nothing and move no element. insert and erase of one element copy at most the elements behind it, plus, for insert without room, one reallocation.", "quantifier": "every reachable vector of any size and capacity, every sequence of elements", "why_tests_cant": "The total cost is a statement about all n; a test sees a few sizes, and sees time, not copies.", "anchors": ["ttl/vector.hpp: push_back, insert, insert_values, reserve, erase"]}
{"id": "C142", "title": "sorted_vector_map reallocates logarithmically often", "statement": "Inserting any entries one by one into a sorted_vector_map reallocates its array (so that begin() changes) at most 2 log2 n + 1 times, where n is the number of entries afterwards, and copies at most 4 n pointers for it.", "quantifier": "every comparator, every reachable map except those made by sorted_vector_map(1) (see C44), every number of entries, every sequence of entries with new and repeated keys", "why_tests_cant": "A bound for every n and every start state cannot be measured.", "anchors": ["ttl/sorted_vector_map.hpp: insert, insert_before"]}
{"id": "C143", "title": "fixed_vector truncates any count", "statement": "With size_type, sizeof(T) and addresses of a real machine, a call with a count of elements (construction, assign, resize, insert at any position) keeps the elements that fit into the capacity and drops the rest, however large the count is, up to size_type(-1); memory outside the storage is never touched.", "quantifier": "every modulus of size_type, every sizeof(T), every address of the object, every capacity, every reachable memory, every count and position", "why_tests_cant": "Whether an address computation wraps around depends on the word size, sizeof(T) and where the object lies; a test has one machine and a few addresses.", "anchors": ["ttl/fixed_vector.hpp: insert, resize, assign, fixed_vector(n), fixed_vector(n, value)"]}
{"id": "C144", "title": "list operations cost what the standard allows", "statement": "Every insertion into a ttl::list makes one node and one element copy per inserted element; popping, erasing, clearing, reversing, splicing and swapping make no element and compare nothing; remove and remove_if compare once per element, unique once per element but the first; merging m elements into a list of n compares at most m + n - 1 times and makes no element; a copied list makes one copy per element.", "quantifier": "every reachable memory, every list, every position, value, predicate and comparator", "why_tests_cant": "A test can count the operations for a few lists, but the bound is about all sizes and all contents", "anchors": ["ttl/list.hpp: list::merge", "ttl/list.hpp: list::insert", "ttl/list.hpp: list::unique", "ttl/list.hpp: list::remove_if", "ttl/list.hpp: list::splice"]}
{"id": "C145", "title": "forward_list, backward_list, lazy_queue: one node per element, and lazy_queue recycles", "statement": "Every insertion into a forward_list or backward_list makes one node and one element copy per inserted element, copying and assigning a list one per copied element; popping, erasing, clearing, reversing, splicing and swapping allocate and copy nothing. lazy_queue copies each inserted element once and allocates at most one node for it; a client that pushes and pops in any order so that the queue never has more than m elements causes at most m - size() allocations, however many elements pass through.", "quantifier": "every reachable memory, every list and queue, every position, value and number of elements, every sequence of pushes and pops", "why_tests_cant": "A test can count the operations for a few programs, but the claim is about all sizes and all push/pop sequences", "anchors": ["ttl/forward_list.hpp: push_front, insert_after, operator=, splice_after", "ttl/backward_list.hpp: push_back, push_front, insert_after, operator=", "ttl/lazy_queue.hpp: push_back, pop_front, insert_after"]}
{"id": "C146", "title": "fixed_vector: number of element copies", "statement": "push_back on a fixed_vector copies one element (none if it is full); inserting n elements before position i of a fixed_vector copies these n and the size() - i elements behind, each once, if they fit, and never more; erasing copies the elements behind the erased ones once; copy construction and assignment copy each element once, self-assignment none; filling and resizing make one element per element kept (resize(n) one more); swapping with a fixed_vector that is not shorter costs three copies per element of the first and one per additional element of the second.", "quantifier": "every capacity, every history with or without exceptions, every fixed_vector, position, count and range", "why_tests_cant": "A test can count the copies for a few sizes, but the formula is about all capacities, sizes and positions", "anchors": ["ttl/fixed_vector.hpp: push_back, insert, erase, operator=, assign, resize, swap"]}
{"id": "C147", "title": "a count and a value mean that many copies", "statement": "Constructing, assigning or inserting with a number n and a value x (c(n, x), c.assign(n, x), c.insert(pos, n, x)) selects the overload that makes n copies of x, whatever integer type n and whatever type convertible to the element type x has; two iterators select the overload for ranges; the calls the containers make themselves select the overload they mean for every element type; insert(first, last) of map, set and sorted_vector_map never selects the undefined hinted insert.", "quantifier": "every element type, every two argument types, every overload set of the sequence containers, every system of implicit conversions", "why_tests_cant": "A test instantiates a few types; which overload is selected depends on the conversions between all argument types and the element type, and a wrong selection does not compile at all", "anchors": ["ttl/list.hpp: list(n, value), assign, insert", "ttl/vector.hpp: vector(n, value), assign, insert, resize, push_back", "ttl/fixed_vector.hpp: fixed_vector(n, value), assign, insert", "ttl/forward_list.hpp: insert_after, assign", "ttl/backward_list.hpp: insert_after, assign", "ttl/lazy_queue.hpp: insert_after", "ttl/map.hpp: insert", "ttl/set.hpp: insert", "ttl/sorted_vector_map.hpp: insert"]}
{"id": "C148", "title": "map/set: logarithmic comparisons, one node per element", "statement": "find and insert on a map or set of n elements make at most 4 log2(n+1) comparisons (calls of the comparator and == of keys together), lower_bound at most 2 log2(n+1), erase at most 18 log2(n+1); insert makes exactly one node if the key is absent and none if it is present, insert(first, last) as many as the container grows by; lookups and erase make no node; copying or assigning n elements makes n nodes and compares nothing; default construction, clear and destruction neither copy nor compare.", "quantifier": "every reachable memory, every container, key, value and range, every strict total order", "why_tests_cant": "A test can count the operations for a few containers, but the bound is about all sizes, contents and histories", "anchors": ["ttl/rbtree.hpp: find, lower_bound, insert_unique, remove, assign, clear", "ttl/map.hpp: insert, erase", "ttl/set.hpp: insert, erase"]}
{"id": "C149", "title": "The members of sorted_vector_map have logarithmic search costs", "statement": "In a sorted_vector_map of fewer than 2^d elements, find(key), at(key), lower_bound(key), equal_range(key) and count(key) make at most 2d comparisons (one == and one call of the comparator for each halving) and upper_bound(key) at most two more, and none of them allocates. insert(value) and operator[] make at most 2d + 1 comparisons; beyond them they make nothing if the key is present, one pair if it is not, and one new array only if the array is full, and operator[] makes six operations more for the pair it inserts (T(), and five copies of the key or the value). A copy makes exactly one array and one pair for each element; a constructor makes exactly one allocation; clear and the destructor allocate, copy and compare nothing. An exception can come from these operations only.", "quantifier": "every sequence of calls, also after exceptions, every map in it, every key and value, every comparator (a strict total order for upper_bound)", "why_tests_cant": "a bound on the number of operations for every size and every content cannot be sampled, and one more comparison per halving is invisible in results", "anchors": ["ttl/sorted_vector_map.hpp: bsearch", "ttl/sorted_vector_map.hpp: find", "ttl/sorted_vector_map.hpp: insert", "ttl/sorted_vector_map.hpp: insert_before", "ttl/sorted_vector_map.hpp: sorted_vector_map"]}
{"id": "C150", "title": "Every member of vector makes an exact number of allocations and copies", "statement": "Each constructor of vector makes one allocation and one copy per element (the default constructor nothing). Inserting m > 0 elements at position i of size() elements, by insert or push_back, makes (size() - i) + m copies and no allocation if they fit into the capacity, otherwise one allocation and size() + m copies; inserting none makes nothing. erase(first, last) copies the elements behind last; pop_back, clear, swap, the destructor and a shrinking resize make nothing; a growing resize is an insertion at the end (resize(n) makes one temporary more). reserve(n), assign(n, x) and operator= allocate exactly if there is not room enough, and then once, and copy each element once; assign(first, last) makes at most one allocation and one copy per element.", "quantifier": "every sequence of calls, also after exceptions, every vector in it, every size, capacity, position and argument", "why_tests_cant": "the number of copies is not visible in results, and no finite set of sizes settles it for all sizes and positions", "anchors": ["ttl/vector.hpp: vector", "ttl/vector.hpp: vector::insert", "ttl/vector.hpp: vector::erase", "ttl/vector.hpp: vector::reserve", "ttl/vector.hpp: vector::assign", "ttl/vector.hpp: vector::resize"]}
{"id": "C151", "title": "The members of vector_map make an exact, linear number of comparisons and copies", "statement": "In a vector_map find(key) makes i + 1 comparisons of keys if the first entry of key is at position i, and size() if there is none, and allocates and copies nothing; count(key) makes size() comparisons. insert(value) and operator[](key) with a present key make only the comparisons of find; with a new key they make size() comparisons and, if there is room, one copy of the new entry, otherwise one allocation and a copy of each entry; operator[] makes four operations more (T(), and in making the pair one copy of the key to a parameter and one copy each of key and value). c.erase(c.find(key)) compares or copies each entry exactly once. The members inherited from vector cost what they cost for a vector.", "quantifier": "every sequence of calls, also after exceptions, every vector_map in it, every key and value", "why_tests_cant": "the numbers of comparisons and copies are not visible in results, and no finite set of sizes settles them for all sizes", "anchors": ["ttl/vector_map.hpp: vector_map::find", "ttl/vector_map.hpp: vector_map::find_key", "ttl/vector_map.hpp: vector_map::count", "ttl/vector_map.hpp: vector_map::insert", "ttl/vector_map.hpp: vector_map::operator[]"]}
{"id": "C152", "title": "An exception of the client's code leaves an algorithm with exactly the elements done so far", "statement": "If a functor, a comparison, or a copy or assignment of an element throws (an assignment that throws leaving its target as it was), the exception leaves the algorithm. Then find_if, find_if_not, all_of, any_of, none_of, count_if, equal, mismatch, adjacent_find, lower_bound, upper_bound, binary_search, equal_range, for_each and accumulate have changed nothing; fill, fill_n, copy, copy_n, copy_backward, reverse_copy, transform, generate, generate_n, iota, replace_if, copy_if, remove_copy_if, replace_copy_if and merge have written exactly the elements before the one at which it was thrown, with the values they would have had without the exception, and nothing else; remove_if has lost no element that is to be kept or was not tested yet; swap_ranges and reverse have lost no element. In all cases every other container and every element outside the ranges is as before, and the containers can be used on. Without an exception the results are the usual ones, and the number of operations that may throw is the exact number of calls and assignments.", "quantifier": "every range of every container, every functor with any state, every operation at which an exception may be thrown", "why_tests_cant": "a test throws at some operations of some ranges; the state left behind must be right for every operation of every range", "anchors": ["ttl/algorithm.hpp: ttl::remove_if", "ttl/algorithm.hpp: ttl::copy_if", "ttl/algorithm.hpp: ttl::merge", "ttl/algorithm.hpp: ttl::reverse", "ttl/algorithm.hpp: ttl::swap_ranges", "ttl/algorithm.hpp: ttl::transform", "ttl/numeric.hpp: ttl::iota", "ttl/utility.hpp: ttl::swap"]}
{"id": "C153", "title": "Searching, order tests and extrema make a bounded number of comparisons, and one that throws changes nothing", "statement": "For ranges of lengths n and m: search finds the first occurrence with at most n*m comparisons; search_n (both forms, any count) makes at most n comparisons or calls of the predicate; is_sorted_until and is_sorted make one comparison per neighbouring pair up to the first pair out of order, at most n-1; min_element and max_element make exactly n-1 comparisons (none for an empty range) and minmax_element exactly 2(n-1); mismatch with three iterators makes one comparison per pair up to and including the first difference. If any of these comparisons throws, the exception leaves the call and memory is as it was; if none throws, the results are the usual ones.", "quantifier": "every range of every container, every comparison, every comparison at which an exception may be thrown", "why_tests_cant": "the number of comparisons is not visible in the result, and no finite set of ranges settles the bound or the state after an exception", "anchors": ["ttl/algorithm.hpp: ttl::search", "ttl/algorithm.hpp: ttl::search_n", "ttl/algorithm.hpp: ttl::is_sorted_until", "ttl/algorithm.hpp: ttl::is_sorted", "ttl/algorithm.hpp: ttl::min_element", "ttl/algorithm.hpp: ttl::max_element", "ttl/algorithm.hpp: ttl::minmax_element", "ttl/algorithm.hpp: ttl::mismatch"]}
{"id": "C154", "title": "A set whose elements are assigned through iterators stays a set", "statement": "The iterators of set give write access to the elements (*it = v). After any history of set members and such assignments, loops forwards and backwards see every element exactly once with the value last assigned to it, at the same iterator position; other sets are as before; every member call returns; find answers end() or an element equal to the key; and when all sets are destroyed no memory is left. Moreover the set is the set of the elements its loops see: they are ascending, find finds every one of them, insert adds exactly the keys that are not there, erase removes exactly the element with the key.", "quantifier": "every set, every element, every assigned value, every history of members and assignments", "why_tests_cant": "a test assigns some values to some elements of some sets", "anchors": ["ttl/set.hpp: set::iterator::operator*", "ttl/set.hpp: set::iterator::operator->", "ttl/set.hpp: set::find", "ttl/rbtree.hpp: rbtree::find"]}
{"id": "C155", "title": "Iterating over a map or set takes two links per element, and one step and the recursive members are logarithmic", "statement": "In a map or set of n elements a loop from begin() to end(), and one from end() back to begin(), each follow exactly 2n links between nodes in all, whatever history built the tree. One ++ or -- from an element, -- from end(), and begin() follow at most 2*log2(n+1) links each. clear() and the destructor never have more than max(1, 2*log2(n+1)) nested calls of their recursive helper alive, copy construction never more than 2*log2(n+1), and assignment never more than the larger of what clearing the target and copying the source need: the stack needed does not grow with n beyond that.", "quantifier": "every history of calls, every map or set in it, every element", "why_tests_cant": "neither the number of links followed nor the depth of recursion is visible in results, and no finite set of trees settles the bound for all histories", "anchors": ["ttl/rbtree.hpp: rbtree_base::next_node", "ttl/rbtree.hpp: rbtree_base::prev_node", "ttl/rbtree.hpp: rbtree_base::min_node", "ttl/rbtree.hpp: rbtree::postorder_destroy", "ttl/rbtree.hpp: rbtree::preorder_copy", "ttl/map.hpp: map::iterator::operator++", "ttl/map.hpp: map::iterator::operator--"]}
{"id": "C156", "title": "Access by key, range insertion and range construction of map survive exceptions", "statement": "After any history of map members some of which were left by exceptions: m[key] that is left by an exception (of the comparison, of ==, of making the temporary pair or the new element) has changed nothing, no element and no other map; if it returns, m has one more element (key, T()) if the key was absent and the same elements otherwise, in order of the keys, and the reference is to the value of that key. m[key] = t that returns has set this value and no other; if an exception leaves it, either nothing has changed or the assignment itself threw, and then m is as after m[key]: a new key stays in m with the value T(). m.at(key) = t with a key in m that is left by an exception has changed nothing. insert(first, last) left by an exception has inserted the first i elements of the range, for some i; the constructor from a range left by an exception leaves the other maps as they were and loses no memory. With n elements m[key] costs at most 4*log2(n+1) comparisons if the key is present, otherwise 8*log2(n+1) comparisons, one element, and four copies for the temporary; insert(first, last) costs four copies for each element of the range beyond what insert costs.", "quantifier": "every history of calls and exceptions, every map in it, every key and value, every operation of the call at which an exception may be thrown", "why_tests_cant": "a test throws at some operations of some calls; the guarantee must hold for every operation of every call in every history", "anchors": ["ttl/map.hpp: map::operator[]", "ttl/map.hpp: map::at", "ttl/map.hpp: map::insert", "ttl/map.hpp: map::map", "ttl/pair.hpp: pair::pair", "ttl/rbtree.hpp: rbtree::insert_unique"]}
{"id": "C157", "title": "Calls on different maps and sets touch different memory", "statement": "A call on maps or sets reads, writes and frees nothing but the nodes of the containers it names and the nodes it allocates itself: it runs in the same way, with the same result, in a memory that holds nothing but those containers (where any other access would be invalid), and the rest of memory stays as it is. So calls that name different containers have no memory in common, and one of them finds its memory as if the other had not been made: different threads may use different containers without locks. Lookups, iteration and == write nothing at all, so that any number of them may run on the same container at the same time.", "quantifier": "every reachable memory with any number of containers, every legal call, every pair of calls that name different containers, every key, every comparator that is a strict total order", "why_tests_cant": "A test runs one interleaving of a few threads; a stray access to another container shows up only if the schedule and the data happen to collide.", "anchors": ["ttl/rbtree.hpp: rbtree", "ttl/rbtree.hpp: rbtree_base", "ttl/map.hpp: map", "ttl/set.hpp: set"]}
{"id": "C158", "title": "Calls on different lists and queues touch different memory", "statement": "A call on lists, forward_lists, backward_lists or lazy_queues reads, writes and frees nothing but the cells of the containers it names (the objects, their elements and, for lazy_queue, the nodes kept for reuse; also those of the container that owns an element passed by reference) and the cells it allocates itself: it returns the same in a memory in which nothing else is allocated (where any other access would be invalid), makes the same of these cells, and leaves all others as they are. So calls that name different containers have no memory in common, and one of them finds its cells as if the other had not been made: different threads may use different containers without locks. Iteration writes nothing.", "quantifier": "every reachable memory with any number of containers of one kind, every legal call, every pair of calls that name different containers", "why_tests_cant": "A test runs one interleaving of a few threads; a stray access to another container shows up only if the schedule and the data happen to collide.", "anchors": ["ttl/list.hpp: list", "ttl/slist_node.hpp: slist_node", "ttl/forward_list.hpp: forward_list", "ttl/backward_list.hpp: backward_list", "ttl/lazy_queue.hpp: lazy_queue"]}
{"id": "C159", "title": "Calls on different vectors touch different memory", "statement": "A call on vectors reads, writes, constructs, destroys and frees nothing but the objects and the blocks of the vectors it names (also of the vector that owns an element or a range it is given) and the blocks it allocates itself: it returns the same in a memory in which nothing else exists (where any other access would be invalid), makes the same of it, and leaves all other objects, blocks and elements as they are. The same holds for fixed_vector, whose storage is part of the object. So calls that name different vectors have no memory in common, and one of them finds its elements as if the other had not been made: different threads may use different vectors without locks. The observers write nothing and need no other memory.", "quantifier": "every reachable memory with any number of vectors or fixed_vectors, every legal call, every pair of calls that name different vectors", "why_tests_cant": "A test runs one interleaving of a few threads; an access beyond the end of a block into a neighbour's shows up only if the allocator places them side by side and the values differ.", "anchors": ["ttl/vector.hpp: vector", "ttl/fixed_vector.hpp: fixed_vector"]}
{"id": "C160", "title": "Calls on different sorted_vector_maps and vector_maps touch different memory", "statement": "A call on sorted_vector_maps reads, writes, allocates and frees nothing but the objects, the pointer arrays and the pairs of the maps it names, a call on vector_maps nothing but the objects and blocks of the maps it names (also of the map that owns an element passed to insert) and what it allocates itself: it returns the same in a memory in which nothing else exists (where any other access would be invalid), makes the same of it, and leaves everything else as it is. So calls that name different maps have no memory in common, and one of them finds its memory as if the other had not been made: different threads may use different maps without locks. Lookup and iteration write nothing and need no other memory.", "quantifier": "every reachable memory with any number of maps, every strict total order (sorted_vector_map), every legal call, every pair of calls that name different maps", "why_tests_cant": "A test runs one interleaving of a few threads; a lookup that follows a stale pointer of the array into another map's pair shows up only if that pair happens to be there.", "anchors": ["ttl/sorted_vector_map.hpp: sorted_vector_map", "ttl/vector_map.hpp: vector_map"]}
{"id": "C161", "title": "A call that throws touches only the memory of the containers it names", "statement": "Also a call on lists, forward_lists, backward_lists or lazy_queues that is left by an exception (of a copy, a comparison, a predicate or an allocation, at any point) reads, writes and frees nothing but the cells of the containers it names, those of the container that owns an element passed by reference, and the cells it allocates itself: it throws or returns the same in a memory in which nothing else is allocated (where any other access would be invalid), makes the same of these cells, and leaves all others as they are. This holds whatever calls returned or threw before; nodes that constructors lost earlier are not touched either. So of two calls that name different containers one finds its cells as if the other, returning or throwing, had not been made.", "quantifier": "every memory reached by any history of calls that returned or threw, with any number of containers of one kind, every legal call, every point at which it throws, every pair of calls that name different containers", "why_tests_cant": "Unwinding code runs only when the test makes the right copy, comparison or allocation throw, and a stray access from it shows up only if it hits something.", "anchors": ["ttl/list.hpp: list", "ttl/slist_node.hpp: slist_node", "ttl/forward_list.hpp: forward_list", "ttl/backward_list.hpp: backward_list", "ttl/lazy_queue.hpp: lazy_queue"]}
{"id": "C162", "title": "A call on vectors that throws touches only the memory of the vectors it names", "statement": "Also a call on vectors or fixed_vectors that is left by an exception (of a copy, an assignment or an allocation, at any point) reads, writes and frees nothing but the vectors it names, their storage, those of the vector that owns an element or range passed to it, and what it allocates itself: it throws or returns the same in a memory in which nothing else is allocated (where any other access would be invalid), makes the same of this memory, and leaves everything else as it is. This holds whatever calls returned or threw before, also with vectors around that an exception has ruined (as long as the call does not name them) and with storage that a constructor lost. So of two calls that name different vectors one finds its memory as if the other, returning or throwing, had not been made.", "quantifier": "every memory reached by any history of calls that returned or threw, with any number of vectors, every legal call, every point at which it throws, every pair of calls that name different vectors", "why_tests_cant": "Unwinding code runs only when the test makes the right copy or allocation throw, and a stray access from it shows up only if it hits something.", "anchors": ["ttl/vector.hpp: vector", "ttl/fixed_vector.hpp: fixed_vector"]}
{"id": "C163", "title": "A call on maps or sets that throws touches only the memory of the containers it names", "statement": "Also a call on maps or sets that is left by an exception (of an allocation, an element copy, a comparison or the == of keys, at any point) reads, writes and frees nothing but the containers it names with their nodes, and the nodes it allocates itself: it throws or returns the same in a memory in which nothing else is allocated (where any other access would be invalid), makes the same of these nodes, and leaves all others as they are. This holds whatever calls returned or threw before: nodes that copies lost earlier and trees that an erase left half rebalanced are not touched by calls on other containers. So calls that name different containers have no node in common, and one finds its nodes as if the other, returning or throwing, had not been made.", "quantifier": "every memory reached by any history of calls that returned or threw, with any number of maps or sets, every legal call, every point at which it throws, every pair of calls that name different containers", "why_tests_cant": "Unwinding code runs only when the test makes the right allocation or comparison throw, and a stray access from it shows up only if it hits something.", "anchors": ["ttl/rbtree.hpp: rbtree, insert_unique, remove, preorder_copy", "ttl/map.hpp: map", "ttl/set.hpp: set"]}
