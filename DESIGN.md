# Formal model of raalkml/ttl in Lean 4

Source: `/repo` (header-only C++ library in `/repo/ttl`), read as text. Model and proofs:
`/verif/lean/Verif`. Properties: `properties.jsonl`. Status per property: `MANIFEST.json`; the table at
the end of this file is generated from both (`tools/design.py`). Axioms per theorem: `AXIOMS.txt`.
Seeded bugs: `seeded/LOG.jsonl`.

## 1. Execution model (`Verif/Base.lean`)

Every modelled C++ function is a `Prog σ α := σ → Res (α × σ)` over an explicit memory `σ`. The
outcome `Res` distinguishes `ok`, `ub` (undefined behaviour: bad pointer / object lifetime /
arithmetic) and `diverge` (the call never returns). Loops are written as recursive definitions with
`partial_fixpoint` over the flat order with bottom `diverge`, so a model loop makes exactly the
iterations of the C++ loop, with no fuel bound; termination is part of what is proved (`= .ok …`).
Undefined behaviour is an outcome, not a precondition: a theorem that says a call is `.ok` says that it
touches no invalid memory.

* Linked structures (list, forward_list, backward_list, lazy_queue, rbtree): a heap of nodes as one
  function per field (`next`, `prev`, `val`, ... : address → content) plus a `live` map. `new`
  returns a fresh address, `delete` kills it; any access to a dead or null address is `ub access`.
  A value may be absent in a live node (header nodes; pooled nodes of lazy_queue): reading,
  destroying or overwriting-by-construction in the wrong state is `ub lifetime`.
* Contiguous containers (vector, fixed_vector, sorted_vector_map, vector_map): storage is a block of
  slots, each raw or holding an object; construction needs a raw slot, read/assign/destroy need an
  object; a freed block is inaccessible. Pointers are (block, offset).
* `const T &` arguments that may alias the container are modelled by a reference datatype (`Arg`,
  `Src`) and are read at the moment the C++ code reads them.
* Algorithms: read-only ones are generic over an abstract iterator interface with a `Range`
  predicate, mutating ones work on a flat memory of cells (`Mem`).
* bitset: an array of 64-bit words (`BitVec 64`); `int`/`unsigned` wrap-around is modelled where the
  code narrows (`count`, `distance`, `bsearch`).
* type traits: C++ types are terms, class templates with partial specialisations are functions.

## 2. Shape of the proofs

1. `…Model.lean`: the functions of one header, statement by statement, each with its file:lines.
2. lemma files: each pointer routine transforms a representation predicate (ring, path, layout, tree
   with zipper); loops by induction on the represented sequence.
3. `Reach`: the memories a client can get to by constructors, calls and destructors on any number of
   containers. An invariant (`World`, `Inv`) is proved for all of them, by induction on the history.
4. `…Props*.lean`: the theorems of `MANIFEST.json`. They speak about `Reach` and about what a client
   observes (`Observes`, `Shows`: the results of the model's own `begin/end/++/*`, `size`, `front`,
   `back`, `operator[]`, ...), against mathematical lists, finite maps and sets. Next to each there
   is an `example` instantiating it on a concrete reachable memory.
5. Where the English property is false of the code, the file contains (a) a theorem refuting it, for
   all states of the bad kind and not only one witness where possible, and (b) a theorem with the
   suffix `_partial` with the exact condition under which it holds, or the exact wrong effect.

| group | model | how proved |
|---|---|---|
| C01–C16 map/set/rbtree | pointer program over an rbnode heap, `rbnode**` as an `Edge` | the heap represents a tree, each pointer routine refines a routine on zippers, zipper routines preserve order + colour invariants (left-leaning red-black); histories by induction in a client language with containers, iterators and queries |
| C111–C113 map/set: weak orders, own arguments, at | same; `KeyRef`/`ValRef` arguments read in the heap at each use (`Rb/RefModel.lean`); `erase` with a reference is related to `erase` of the copy by fixpoint induction | same invariants; weakly sorted trees |
| C115 map/set ranges of container iterators | the loop walks the source tree while inserting (`Rb/Range.lean`) | the walk commutes with insertions into a disjoint tree |
| C114 list self-merge | the list model | loop invariant of the relinking loop; divergence by a cycle of states (`Seq/ListMerge.lean`) |
| C116 algorithms with arguments inside the range | the argument is a cell read at each use (`Algorithm/Alias.lean`) | induction on the range |
| C17–C28, C72–C75 list | doubly linked ring with header node | segment predicate, each operation transforms the represented sequence |
| C29–C31, C76–C79 forward_list | singly linked list with header | path predicate |
| C32, C81–C84 backward_list | as above + tail pointer | same |
| C33–C34, C85–C88 lazy_queue | as above + pool | same + lifetimes of the node values |
| C124 ranges of lists as arguments | same models; `first`, `last` are iterators followed while the loop inserts (`Seq/Run*.lean`) | the loop equals the loop over an array of the values when the insertion point is outside; fixpoint induction for the endless case |
| C125 function objects | the operators of the type as parameters; containers and algorithms with `greater` | order laws from the operators', then the general theorems |
| C126 on: exceptions | `Verif/Exc`: the same functions with numbered points where an allocation, copy, comparison or predicate may throw; the `k`-th one does (`Thr`), unwinding runs the destructors of finished objects only | `Points`: a call passes n points, without exception it is the model's call, and at each point k an invariant of the memory left behind |
| C35–C39, C89–C93 vector | slot block | layout `xs, gap, ys` of the slots; loops move the gap |
| C140 vector with machine numbers | `Vec/MachModel.lean`: products modulo W, difference_type, addresses | refinement to the model with natural numbers up to `max_size()` elements (counted by a difference_type); above, the wrong effect |
| C141 cost of vector | the points of `Verif/Exc` (allocations, element copies) counted | exact counts per call, summed by induction |
| C142 reallocations of sorted_vector_map | a client that watches begin() | growth invariant: two reallocations double the array |
| C143 fixed_vector with machine numbers | `Vec/FMachModel.lean`: comparison of addresses modulo W in insert | refinement while last_ + n is an address (always, except before an element); beyond, undefined behaviour |
| C144 cost of list | `Exc/ListModel.lean` counts node creations, comparisons, predicate calls | exact count `work` for every call; merge: upper bound and lower bound |
| C145 cost of forward_list, backward_list, lazy_queue | `Exc/FwdModel.lean`, `Exc/LazyModel.lean` count node creations, allocations and copies | exact count per call (`Exc/SlistCost.lean`); push/pop programs by induction, the number of nodes of the queue being max of past sizes |
| C146 cost of fixed_vector | `Exc/FvModel.lean` counts constructions and assignments of elements | exact count per call (`Exc/FvCost.lean`) |
| C147 overload selection | `Util/Overload.lean`: deduction, viability, ranking; the overload sets of all containers | case analysis over the sets for arbitrary conversions |
| C148 cost of map and set | `Exc/RbModel.lean` counts node creations, comparator calls and `==` of keys | `Spends`: cost bounded by a multiple of the comparator calls, compositional (`Exc/RbCost.lean`), with the bounds of C04 |
| C149 cost of sorted_vector_map | `Exc/SModel.lean` counts arrays, pairs, comparator calls and `==` of keys | `Within` and `At`: compositional upper bounds in every memory and in a given one; halving by `fixpoint_induct` (`Exc/SCost.lean`) |
| C150 cost of vector | `Exc/VecModel.lean` counts allocations and copies of elements | exact count of every legal call after any history (`call_cost`), then in terms of size and capacity (`Exc/VecCost2.lean`) |
| C151 cost of vector_map | `Exc/VmModel.lean` counts comparisons, allocations, copies | exact counts after any history, from those of vector (`Exc/VmCost.lean`) |
| C152 exceptions in algorithms | `Exc/AlgoModel.lean`: each algorithm with a point before every functor call and element assignment | `Does`: same result as the generic algorithm without exceptions, exact number of points, state after each point; induction on the range |
| C153 comparisons of searching algorithms | `Exc/AlgoSearch.lean`: search, search_n, is_sorted, extrema, mismatch with a point before every comparison | `Reads`: same result and memory, number of comparisons; induction on the range |
| C154 writing through set iterators | `Rb/Edit.lean`: histories of set members and `*it = v` | ordered world (assignments in place) and unordered world (any assignment, as for C123); negative: descent of `find` at the root |
| C155 links and recursion depth | `Rb/Steps.lean`: walking, clearing and copying functions again, with the number of links followed or activations alive | induction on trees in context: leftmost path + costs of all `++` = 2(size-1) + way out; depth = height, balanced |
| C156 `operator[]` and range insertion of map, exceptions and cost | `Exc/RbIndex.lean`: `operator[]`, `m[k] = t`, `m.at(k) = t`, `insert(first, last)`, `map(first, last)` with the four operations of the temporary pair | simulated by the calls of C129 (`find`, `insert`, `insertRange`, `store`, `destroy`), so that programs go on in `XReach`; costs from `Spends` |
| C157 confinement of map and set | `Rb/Confine.lean`: every member runs in a larger memory as in a smaller one (`Confined`, closed under sequencing and loops by fixpoint induction); `Rb/ConfineProps.lean` | the invariant of reachable memories holds of the memory cut down to the named containers, so the call returns there (`call_ok`); `Confined` carries the run over to the whole memory |
| C158 confinement of list, forward_list, backward_list, lazy_queue | `Exc/SeqConfine.lean` over `Framed` (`Exc/SeqFrame.lean`, `ListFrame`, `SlistFrame`: members run in a larger memory as in a smaller one) | the world of the named containers is a world of its own (`World.part`), so the step theorems give the run there; `Framed` carries it over |
| C159 confinement of vector, fixed_vector | `Exc/VecConfine.lean` over `Framed` (`Exc/VecFrame.lean`), `Exc/FvConfine.lean` with `Framed` for the members of fixed_vector | as C158: the named vectors with their blocks are a world of their own, the step theorem gives the run there, `Framed` carries it over to the whole memory |
| C160 confinement of sorted_vector_map, vector_map | `Exc/SmConfine.lean`, `Exc/VmConfine.lean` | as C159, with `Framed` for their members |
| C161 confinement of calls that throw | `Exc/ThrowConfine.lean` over `FramedT` | a program that destroys all containers but the named ones reaches the memory that has only these (`reach_part`), so the theorems about one call with exceptions apply there; `FramedT` carries the run over to the whole memory |
| C162 confinement of calls on vectors that throw | `Exc/VecThrowConfine.lean`, `Exc/FvThrowConfine.lean` over `FramedT` | the vectors named are a world of their own (`part_without`, `WorldL.part`), where the theorems about one call with exceptions apply; `FramedT` (for fixed_vector, whose storage is part of the object, `FramedET`) carries the run over to the whole memory |
| C163 confinement of calls on maps and sets that throw | `Exc/RbThrowConfine.lean` | `ConfinedT`: what a member does in a memory, it does in every larger one, wherever an exception appears, also through the unwinding of constructors; the containers named, alone, satisfy the invariant of C129 (`Inv.only`), where `call_points` applies |
| C40–C42, C94–C97 fixed_vector | slot block of N | same |
| C43–C45, C98–C102 sorted_vector_map | slot block of pointers to pairs | refinement to a sorted association list |
| C123 map/set with any comparator | same, trees with no order (`Rb/Any*.lean`) | the structural and balance part of the invariant does not use the order |
| C120–C122 sorted_vector_map with any comparator | same model; the search as a function on sequences (`Map/SAny.lean`) | the invariant without order; a stability argument adds weak order; cost: the result depends on at most d entries |
| C46, C103–C104 vector_map | model of vector + scan | refinement to an association list |
| C47–C54 bitset | words | bitwise extensionality |
| C55–C71, C80 algorithms | iterator interface / cells | induction over the range |
| C117–C119 algorithms on any iterator | an iterator type is a set of operations on a memory, functors may have state (`Algorithm/Generic*.lean`, `OnTrees`, `OnContainers`) | windows of distinct iterators presenting a sequence; induction on the range; each container's `begin()`/`end()` is shown to be such a window |
| C105–C108 array, pair, distance | cells | histories by induction |
| C109–C110 type traits | types as terms | structural induction |

## 3. What is modelled, per header

| header | modelled | not modelled |
|---|---|---|
| algorithm.hpp, numeric.hpp | every function template of the files | value arguments (`const T &`) of the mutating algorithms are values unless a theorem says otherwise; user functions are pure (generate: a state machine) in ReadOnly.lean/Mutating.lean; Generic.lean models the algorithms again for any iterator type and functors with state |
| array.hpp | everything | reverse iterators (none in the header) |
| backward_list.hpp | everything outside `#if TODO` | the `#if TODO` part |
| bitset.hpp | everything | stream output |
| fixed_vector.hpp | everything | |
| forward_list.hpp, slist_node.hpp | every defined function | resize, remove, remove_if, unique, merge, sort: declared only |
| functional.hpp | less, greater, equal_to, not_equal_to over the operators of the type (`Util/Functional.lean`); elsewhere comparators are parameters | the argument typedefs |
| lazy_queue.hpp | every defined function | remove, remove_if: declared only |
| list.hpp | every defined function | sort: declared only |
| map.hpp, set.hpp, rbtree.hpp | every defined function | erase(iterator), hinted insert, swap: declared only. Allocation is `new`, which does not fail |
| sorted_vector_map.hpp | every defined function | erase, operator=, range constructor, insert(range), hinted insert, swap: declared only |
| type_traits.hpp | all traits | enable_if (no run-time effect), true_type/false_type |
| utility.hpp | pair, make_pair, swap, distance, advance | |
| vector.hpp | every defined function | |
| vector_map.hpp | everything | |
| ttl.hpp, types.hpp | — | includes and usings only |

Simplifications that hold everywhere (the README declares the library to be for programs without exceptions): within one call, and for the contiguous containers
throughout, allocation never reuses an address (so a dangling pointer is never accidentally valid again); for the linked containers (list, forward_list,
backward_list, lazy_queue, map/set) histories contain steps of the rest of the program (`Env`), in which storage that is not allocated is written arbitrarily and
the address handed out next becomes any beyond the storage in use, so storage given back may be handed out again; outside `Verif/Exc` (C126 on) allocation never fails and element copy, destruction and comparison do not
throw; element operations return and do not touch the container; comparators and predicates are pure functions;
`size_type` counters are unbounded natural numbers except where the code narrows to `int`/`unsigned` and in C140 and C143, where `vector` and `fixed_vector` are modelled with
the modulus of `size_type`, `sizeof(T)` and addresses (`Verif/Vec/MachModel.lean`, `Verif/Vec/FMachModel.lean`);
forming a pointer past the end of a block is plain arithmetic (`vector::reserve` on an empty vector and
`fixed_vector::insert` form such pointers only to compare them, which C++ forbids); overload
resolution is modelled only in C147: elsewhere `insert(pos, n, x)` is the count version, which in C++ needs arguments of different types;
`vector_map` hides `vector`'s `operator[]`, `at`, `insert`, the client observations of C104 use the base-class
versions; `const`-correctness, timing (except the comparison count of C04) and concurrency (the library
has none) are not modelled; C157 to C163 say which memory a call accesses.

## 4. Trusted base

* Lean 4.33.0 kernel. Axioms: `propext`, `Quot.sound`, `Classical.choice` at most; the exact list for
  every theorem of the manifest is in `AXIOMS.txt`. No axioms of our own, no compiled evaluation.
* The reading of the C++ code: that each definition says what the cited lines do. Nothing is proved
  about the compiled code itself.
* The specification functions used in the statements (small, at the head of the `Props` files).

## 5. Findings: where the code deviates from the property a user relies on

Each is a theorem about the model (named in the table of section 6).

* **list.hpp, forward_list.hpp, backward_list.hpp, lazy_queue.hpp**: `insert(pos, first, last)` with a range of the list itself that
  contains the element the new ones are put behind never returns (so `l.insert(l.end(), l.begin(), l.end())`);
  `assign` with a range of the list itself is UB.
* **list.hpp**: `erase(first, last)` leaves the last element of the range, `erase(p, p)` is UB; `clear()` leaves
  `head_.prev` dangling, so the next insertion is a use after free; `resize(0)` does nothing; `splice` of an empty
  range or list corrupts both lists, `splice` to `pos == last` in one list loses elements; `swap` of two empty lists
  links each header to the other; `operator=` on a non-empty list is UB, self-assignment empties; `remove(v)` with `v`
  an element of the list reads it after it was freed; `a.merge(a)` empties the list and leaks its nodes or never returns.
* **list.hpp**, exceptions: a constructor whose element copy throws leaks the elements made before; `operator=` that throws has lost the old elements.
* **forward_list.hpp, backward_list.hpp**, exceptions: as for list.hpp; besides, an interrupted `insert_after(before_end(), n, v)` of backward_list leaves
  `before_end()` at the old last element although elements follow it.
* **lazy_queue.hpp**, exceptions: `get_node` loses the node it took from the pool or the allocator when copying the value throws; an insertion of several
  elements behind the last one that throws leaves `tail_` at the old last element: `back()` is wrong (UB if the queue was empty), `push_back` inserts in the
  middle, and after `pop_front` past that element `push_back` links its element to a pooled node and loses it; `operator=` that throws has lost the old
  elements; a constructor that throws leaks its nodes.
* **rbtree.hpp** (map, set), exceptions: an `erase` left by an exception of the comparison does not repair the colours it changed on its way down. The
  root may then be red, and `--` takes a red root for the header; the next `erase` may cut off and leak an element it was not asked to erase (four
  elements, exception in `erase` of the last, then `erase` of the second: the last is gone). Copies that throw leak the nodes copied so far.
* **vector.hpp**, exceptions: `push_back`, `insert`, `resize` within the capacity and `erase` that throw leave a vector that counts a slot without an
  object, so its destructor is undefined behaviour (`last_` is incremented before the constructor runs, and set after the whole shift in `erase`);
  reallocating calls and constructors leak the new block when an element copy throws; assignments have lost the old elements.
* **vector.hpp**, cost: a reallocation makes room for exactly the elements asked for, so every `push_back` on a full vector reallocates and copies all
  elements: appending n elements to a new vector costs n (n + 3) / 2 allocations and copies. `assign(first, last)` does not reserve either: beyond the
  capacity it reallocates once per element. `assign(capacity(), x)` and `=` from a vector of equal capacity allocate although there is room (C150).
* **fixed_vector.hpp**: `insert(pos, n, x)` before an element computes `last_ + n`; for a count so large that this wraps around (`size_type(-1)` always does)
  elements are made outside the storage, although everywhere else counts are cut to the capacity (C143).
* **all sequence containers**: `c(n, x)`, `assign(n, x)`, `insert(pos, n, x)` with two arguments of one type other than `size_type` (`vector<int> v(10, 0)`) select the
  unrestricted template for ranges, whose body takes the numbers for iterators and does not compile (C147).
* **list.hpp**, `merge`: after moving an element before `i` it continues with `i = ` the moved element, so that the next element is compared with the moved one, too:
  up to 2 m + n - 1 comparisons, where std::list allows m + n - 1 (C144).
* **fixed_vector.hpp**, exceptions: `last_` is moved before an element is made (`new(last_++) T(x)`), so every `push_back`, `insert`, `assign`,
  `operator=`, growing `resize` and every `erase` with elements behind it that throws leaves a fixed_vector that counts a slot without an object: reading,
  `clear` and the destructor are UB. `swap` that throws may lose an element (both hold the other's copy) or ruin the shorter fixed_vector the same way; a
  constructor that throws never destroys the elements made before.
* **sorted_vector_map.hpp**, exceptions: `insert` of a new key that throws while making the pair leaves a map that counts one element too many (`last_` is
  incremented and the pointers are moved first): the element behind the position is seen twice and deleted twice, or the last slot is a stray pointer. With a
  full array the new array leaks; copies that throw leak everything made so far.
* **forward_list.hpp / slist_node.hpp**: `splice_after(pos, empty)` drops the tail of the destination, an empty range
  between two lists makes them share nodes, moving an element behind itself or a range to its own start loses
  elements; self-assignment empties; `assign(n, own element)` is UB.
* **backward_list.hpp**: inserting/assigning/copying a range at the end leaves `tail_` stale; `pop_front` of the only element
  and `reverse` of an empty list break the back position; `swap` with an empty list corrupts; self-assignment empties;
  `assign(n, own element)` is UB.
* **lazy_queue.hpp**: `cleanup()` and the destructor destroy pooled values a second time; `swap` with an empty queue leaves
  `before_end()` in the other queue; self-assignment empties.
* **vector.hpp**, large requests: `n * sizeof(T)` is not checked against overflow, so `vector(n)`, `vector(n, x)`, `assign(n, x)`, `insert(pos, n, x)` and
  `resize(n)` above `max_size()` write outside their storage, and `reserve(n)` returns without the room; `insert(pos, n, x)` and `resize(n)` that add
  half of the range of `size_type` or more silently do nothing (C140).
* **vector.hpp**: `erase(p, p)` for `p != end()` is UB; inserting an own element within capacity is UB or inserts another
  element; `assign` from own elements is UB; self-assignment empties; `reserve(capacity())` reallocates.
* **fixed_vector.hpp**: `swap` with a shorter vector is UB; `erase(p, p)`, own elements, self-assignment as in vector.
* **sorted_vector_map.hpp**: `count` is inverted; a map constructed with room for 1 never grows and the second insertion
  writes out of bounds; the search sees the size modulo 2^32; `equal_range` of an absent key is `(end, end)`;
  `at(absent)` is UB; with a comparator under which unequal keys are equivalent, equivalent keys are all kept and present keys
  are missed.
* **vector_map.hpp**: `count` of a present key never returns; `at(absent)` is UB. Exceptions as in vector: an insertion into a map
  with room or an erasure that throws leaves a map that cannot be destroyed; an insertion into a full map leaks the new block.
* **rbtree/map/set**: `rbtree::count` undercounts duplicates; `map/set::upper_bound` and `equal_range` of an absent key skip an
  element; self-assignment empties; with a comparator under which unequal keys are equivalent, lookups miss present keys and
  `insert` adds equal keys twice, and `erase` of a key followed by an equivalent one removes and leaks another element, too;
  `map::at(absent)` is UB.
* **set.hpp**: `set::iterator` gives write access to the keys (`*it = v` compiles); a key assigned out of order is seen by loops but not by `find` (C154).
* **bitset.hpp**: `set(i, false)` does nothing; `b[i] = b[j]` clears the rest of the word; widening assignment copies padding
  bits; string and `bitset<0>(v)` constructors write out of bounds; `all()` of `bitset<0>` is false.
* **algorithm.hpp, utility.hpp**: `reverse` and `swap_ranges` exchange by copying; if the second assignment of an exchange throws,
  one element is lost and another is there twice.
* **algorithm.hpp, utility.hpp**: `search_n` with a predicate compares the first element with `==`; `lower_bound` and friends,
  `count`, `distance` keep numbers in `int` and are wrong from 2^31 on; `replace` and `remove` with the value argument inside the
  range re-read it after overwriting it.
* **map.hpp** (read off the text, no theorem): it declares the three-iterator `ttl::equal` before `operator==` calls the four-iterator one, so that
  comparing maps does not compile unless algorithm.hpp is included before map.hpp (set.hpp and list.hpp declare the right one).
* **type_traits.hpp**: `is_const<T &&>`, `is_volatile<T &&>` do not compile; `is_unsigned<bool>` is false, `is_scalar` is false
  for enumerations and member pointers.

## 6. Properties and theorems

* **C01 map behaves as a finite dictionary over every history** — proved. `map_history`, `spec_deterministic`, `calls_return`, `exists_reach`, `exists_reach_257` (Rb/ContainerProps.lean, Rb/ContainerProps2.lean, Rb/MapProps.lean)
* **C02 set behaves as a finite set over every history** — proved. `set_history` (Rb/SetProps.lean)
* **C03 Iteration over a map/set is strictly ascending and complete** — proved. `iteration`, `iteration_covers_memory` (Rb/ContainerProps.lean)
* **C04 Search depth is logarithmic** — proved. `depth_logarithmic`, `comparisons_logarithmic` (Rb/ContainerProps.lean)
* **C05 lower_bound returns the first element not less than the key** — proved. `lower_bound_first` (Rb/ContainerProps.lean)
* **C06 upper_bound returns the first element greater than the key** — partial. `upper_bound_first_partial`, `upper_bound_wrong_when_absent`, `upper_bound_counterexample`, `upper_bound_computes`, `rbtree_upper_bound_first`. Proved for rbtree::upper_bound and for map/set::upper_bound of a present key. False of the code for an absent key: map/set skip one element (upper_bound_wrong_when_absent). (Rb/ContainerProps.lean)
* **C07 insert never overwrites** — proved. `insert_spec` (Rb/ContainerProps2.lean)
* **C08 erase removes exactly one key and keeps all other iterators valid** — proved. `erase_spec` (Rb/ContainerProps2.lean)
* **C09 insert keeps all existing iterators valid** — proved. `insert_keeps_elements` (Rb/ContainerProps2.lean)
* **C10 Copying a map/set is deep and independent** — proved. `copy_is_deep`, `assign_is_deep`, `independent` (Rb/ContainerProps2.lean)
* **C11 Self-assignment of a map/set preserves it** — partial. `self_assign_empties`, `self_assign_keeps_empty_partial`, `self_assign_counterexample`. False of the code: operator= clears first, so every non-empty container is emptied by self-assignment (self_assign_empties). (Rb/ContainerProps2.lean)
* **C12 rbtree::insert_equal is a stable multiset insert** — proved. `insert_equal_stable`, `multi_iteration`, `multi_bounds` (Rb/Multi.lean)
* **C13 rbtree::count returns the number of matching elements** — partial. `count_bounds_partial`, `count_wrong_for_many`, `count_unique_partial`, `count_counterexample`. False of the code: with three equal elements count answers 2 (count_counterexample), and it is too small for every group of more than 2 log2(n+1) equal elements (count_wrong_for_many). Proved: exact for unique keys; never more than the real number, never more than 2 log2(n+1), and positive iff present. (Rb/Multi.lean)
* **C14 ++ and -- on map/set iterators are mutually inverse** — proved. `iterators_inverse` (Rb/ContainerProps2.lean)
* **C15 clear and destruction free every node exactly once** — proved. `clear_frees_exactly`, `destroy_frees_exactly`, `no_leak` (Rb/ContainerProps2.lean)
* **C16 erase frees exactly the removed node** — proved. `erase_frees_exactly` (Rb/ContainerProps2.lean)
* **C17 list behaves as a sequence over every history of push/pop/insert/erase** — proved. `list_history`, `new_list_history`, `call_returns` (Seq/ListProps.lean)
* **C18 list forward and backward traversals mirror each other** — proved. `backward_mirrors_forward` (Seq/ListProps.lean)
* **C19 list insert(pos, first, last) inserts a whole range in order** — proved. `insert_range_inserts`, `insert_n_inserts`, `insert_list_inserts`, `insert_returns_new` (Seq/ListProps.lean)
* **C20 list erase(first, last) removes exactly the half-open range** — partial. `erase_removes`, `erase_range_partial`, `erase_range_wrong`, `erase_empty_range_ub`. Proved for erase(pos). erase(first,last) as written leaves the last element of the range in the list (erase_range_wrong) and erase(p,p) is undefined behaviour (erase_empty_range_ub); erase_range_partial says exactly what it does. (Seq/ListProps.lean)
* **C21 list clear leaves an empty, usable list** — partial. `clear_partial`, `use_after_clear_ub`. Proved: frees each node once, begin()==end(), empty(). Not usable again: head_.prev dangles, so the next push/insert is use after free (use_after_clear_ub). (Seq/ListProps.lean)
* **C22 list reverse reverses in place** — proved. `reverse_reverses` (Seq/ListProps2.lean)
* **C23 list remove/remove_if delete exactly the matching elements** — partial. `remove_if_removes`, `remove_removes_partial`, `remove_own_element_ub`. Proved for remove_if and for remove(v) when v is not a reference to an element of the list; remove(l.front()) and the like read the freed element (remove_own_element_ub). (Seq/ListProps2.lean)
* **C24 list unique removes consecutive duplicates** — proved. `unique_keeps_first_of_runs` (Seq/ListProps2.lean)
* **C25 list merge is a stable merge that moves nodes** — proved. `merge_merges` (Seq/ListProps2.lean)
* **C26 list splice moves nodes without copying** — partial. `splice_moves_partial`, `splice_within_partial`, `splice_all_moves_partial`, `splice_one_moves`, `splice_empty_range_breaks`, `splice_all_empty_breaks`, `splice_to_own_end_loses`. Proved for non-empty ranges/lists and positions outside the range. Empty ranges and lists corrupt the links, and splicing to the position equal to last loses the elements (negative theorems). (Seq/ListProps3.lean, Seq/ListProps4.lean)
* **C27 list swap exchanges contents** — partial. `swap_exchanges_partial`, `swap_empty_breaks`. Proved unless both lists are empty; swapping two empty lists links each header to the other (swap_empty_breaks). (Seq/ListProps4.lean)
* **C28 list resize sets the size** — partial. `resize_resizes_partial`, `resize_zero_keeps`. Proved for n > 0; resize(0) does nothing (resize_zero_keeps). (Seq/ListProps5.lean)
* **C29 forward_list behaves as a sequence over every history** — proved. `list_history`, `new_list_history`, `call_returns`, `insert_after_returns_new`, `erase_after_removes`, `insert_n_own_element` (Seq/FwdProps.lean)
* **C30 forward_list splice_after moves exactly the designated elements** — partial. `splice_moves_partial`, `splice_within_before_partial`, `splice_within_behind_partial`, `splice_all_moves_partial`, `splice_one_moves`, `splice_one_within_partial`, `splice_all_empty_loses`, `splice_empty_range_shares`, `splice_one_behind_itself_loses`, `splice_to_own_start_loses`. Proved for non-empty ranges and lists, and positions outside the moved range. Splicing an empty list drops the rest of the destination, an empty range makes two lists share nodes, and moving elements to where they are loses them (negative theorems, for all lists). (Seq/FwdProps2.lean)
* **C31 forward_list reverse reverses in place** — proved. `reverse_reverses` (Seq/FwdProps2.lean)
* **C32 backward_list behaves as a sequence with constant-time push_back over every history** — partial. `list_history_partial`, `new_list_history_partial`, `contents_history_partial`, `call_returns`, `insert_after_returns_new`, `erase_after_removes`, `insert_n_own_element`, `clear_restores`, `reverse_reverses_partial`, `insert_range_at_end_loses_end`, `pop_last_element_breaks`, `reverse_empty_breaks`. Proved for every history that does not pop the only element, insert or assign a non-empty range at the end, or reverse an empty list; and for the contents (not back/empty) of every history without push_back. In the excluded cases the code leaves tail_ wrong: negative theorems, for all lists. (Seq/BwdProps.lean, Seq/BwdProps2.lean, Seq/BwdProps3.lean)
* **C33 lazy_queue is FIFO and recycles nodes safely** — proved. `queue_history`, `new_queue_history`, `fifo`, `pop_then_push_reuses`, `call_returns`, `insert_after_returns_new`, `erase_after_removes`, `insert_n_own_element`, `roll_head_rolls`, `roll_head_empty` (Seq/LazyProps.lean, Seq/LazyProps2.lean)
* **C34 lazy_queue cleanup/destructor destroy every value exactly once** — partial. `cleanup_frees_partial`, `destroy_frees_partial`, `cleanup_double_destroys`, `destroy_double_destroys`, `push_pop_destroy_ub`, `clear_destroy_ub`. Proved for types with a trivial destructor, and for queues that keep no node for reuse. Otherwise cleanup() and the destructor delete pooled nodes whose value put_node has destroyed already: every value in the pool is destroyed twice (negative theorems for every reachable queue with a pooled node). (Seq/LazyProps2.lean)
* **C35 vector behaves as a dynamic array over every history** — proved. `vector_history`, `new_vector_history`, `call_returns` (Vec/Props.lean)
* **C36 vector respects object lifetimes** — partial. `slots_exactly`, `nothing_else`, `blocks_disjoint`, `destroy_releases`, `destroyed_all`, `vector_life`, `call_returns`, `erase_empty_range_ub`, `insert_own_element_ub`, `assign_n_own_element_ub`, `assign_own_range_ub`. Proved for every history of calls that are Legal (arguments before the insertion point or outside the vector, non-empty erased ranges). The remaining calls break lifetimes in the code: erase(p, p), insert of an own element within capacity, assign from own elements (negative theorems, for all vectors). (Vec/Props.lean, Vec/Props2.lean)
* **C37 vector erase of an empty range is a no-op** — partial. `erase_empty_range_partial`, `erase_empty_range_ub`. True only at end(). For every position that designates an element, erase(p, p) constructs the element on top of itself and destroys it: undefined behaviour (erase_empty_range_ub, all vectors). (Vec/Props2.lean)
* **C38 vector insert accepts a reference to one of its own elements** — partial. `push_back_element`, `insert_element_partial`, `insert_own_element_ub`, `insert_own_element_wrong`, `insert_own_range_ub`. push_back is always right; insert is right for elements before the insertion point, at the end, or when it reallocates. Otherwise it reads a destroyed element or inserts v[a-n] (negative theorems, for all vectors). (Vec/Props2.lean)
* **C39 vector reserve/capacity contract** — proved. `reserve_contract`, `fits_no_reallocation`, `reserve_then`, `insert_keeps_before`, `reserve_capacity_moves` (Vec/Props.lean)
* **C40 fixed_vector never exceeds its capacity nor touches outside its storage** — partial. `slots_exactly`, `nothing_else`, `destroy_releases`, `destroyed_all`, `fixed_vector_life`, `call_returns`, `swap_longer_ub`, `erase_empty_range_ub`, `insert_own_element_ub`, `assign_n_own_element_ub`, `assign_own_range_ub`. Proved for every history of legal calls. The remaining calls access slots without an object: swap with a shorter fixed_vector, erase(p, p), insert/assign of own elements (negative theorems, for all fixed vectors). (Vec/FProps.lean)
* **C41 fixed_vector behaves as a truncating dynamic array** — proved. `fixed_vector_history`, `new_fixed_vector_history`, `push_back_truncates`, `insert_truncates`, `insert_range_truncates`, `call_returns` (Vec/FProps.lean)
* **C42 fixed_vector swap exchanges contents** — partial. `swap_exchanges_partial`, `swap_longer_ub`. True if this->size() <= x.size(); otherwise it is undefined behaviour (swap_longer_ub, all fixed vectors). (Vec/FProps.lean)
* **C43 sorted_vector_map keeps strictly sorted unique keys** — partial. `reach_observes`, `dictionary_history_partial`, `new_dictionary_history_partial`, `search_wraps`, `every_size`, `find_misses_present`. Proved for histories that stay within 2^32 elements. bsearch keeps the size in an unsigned: a map with 2^32 elements (every_size: such maps are reachable) looks empty to it, find misses every key and insert adds present keys again (search_wraps, find_misses_present). (Map/SProps.lean, Map/SProps2.lean)
* **C44 sorted_vector_map growth stays inside its allocation** — partial. `call_returns`, `nothing_else`, `destroyed_all`, `destroy_releases`, `map_life_partial`, `capacity_one_overflows`. Proved for every history without sorted_vector_map(1). A map constructed with room for one element never grows: the second insertion writes out of bounds (capacity_one_overflows, from every reachable memory). (Map/SProps.lean, Map/SProps2.lean)
* **C45 sorted_vector_map count reports membership** — partial. `count_inverted`. The code computes the negation for every map and key (count_inverted). (Map/SProps2.lean)
* **C46 vector_map lookup and count** — partial. `find_finds`, `vcall_returns`, `at_absent_ub`, `count_absent_partial`, `count_present_diverges`. find and at are right for every reachable map, also with repeated keys. count returns 0 for an absent key, but never returns for a present one: find_key(i, key) returns i again (count_present_diverges, all maps). at of an absent key is undefined behaviour (at_absent_ub). (Map/VProps.lean)
* **C47 bitset single-bit operations touch exactly one bit** — proved. `test_reports`, `set_sets_one_bit`, `reset_clears_one_bit`, `flip_flips_one_bit` (Bitset/Props.lean)
* **C48 bitset set(pos, value) assigns the bit** — partial. `set_value_assigns_partial`, `set_value_ors`, `set_false_does_nothing`, `set_value_assigns_false`. False of the code for value=false: set(pos,false) is a no-op. Proved for value=true; exact effect and refutation proved. (Bitset/Props.lean)
* **C49 bitset reference proxies assign one bit** — partial. `ref_assign_bool`, `ref_get`, `ref_not`, `ref_flip`, `ref_assign_ref_effect`, `ref_assign_ref_partial`, `ref_assign_ref_false`. Proved for b[i]=bool, ~b[i], b[i].flip(), conversion. False of the code for b[i]=b[j] (clears the rest of the slot); exact effect and refutation proved. (Bitset/Props.lean)
* **C50 bitset whole-set operations are pointwise** — proved. `set_all_pointwise`, `reset_all_pointwise`, `flip_all_pointwise`, `complement_pointwise`, `and_assign_pointwise`, `or_assign_pointwise`, `xor_assign_pointwise`, `assign_copies` (Bitset/Props.lean)
* **C51 bitset shifts** — proved. `shl_shifts`, `shr_shifts`, `shl_assign_shifts`, `shr_assign_shifts` (Bitset/Props.lean)
* **C52 bitset queries ignore padding bits** — proved. `all_iff`, `any_iff`, `none_iff`, `eq_iff`, `count_counts`, `to_ulong_low_bits`, `kernighan_popcount`, `all_zero_false`. all() for N=0 answers false (all_zero_false). (Bitset/Props2.lean)
* **C53 bitset conversion between widths preserves bits** — partial. `assign_width_preserves_partial`, `assign_width_effect`, `assign_width_preserves_false`. False of the code when widening a bitset whose padding bits are set, e.g. after set() or flip(); exact effect proved. (Bitset/Props2.lean)
* **C54 bitset construction from an integer or string** — partial. `from_ulong_bits`, `from_ulong_zero_oob`, `from_string_bits_partial`, `from_string_overflow`. Integers: proved for N>0; bitset<0>(v) writes out of bounds. Strings: proved when the digits fit the storage; every longer string writes out of bounds (from_string_overflow). (Bitset/Props2.lean)
* **C55 find, find_if, find_if_not return the first match** — proved. `find_if_returns_first_match`, `find_returns_first_match`, `find_if_not_returns_first_mismatch` (Algorithm/ReadOnlyProps.lean)
* **C56 all_of, any_of, none_of decide their quantifiers** — proved. `all_of_iff`, `any_of_iff`, `none_of_iff` (Algorithm/ReadOnlyProps.lean)
* **C57 count and count_if count** — proved. `count_if_counts`, `count_counts`, `count_if_overflow`. The count is an int; more than 2^31-1 matches overflow (count_if_overflow). (Algorithm/ReadOnlyProps.lean)
* **C58 search finds the first occurrence of a subsequence** — proved. `search_returns_first_occurrence` (Algorithm/ReadOnlyProps.lean)
* **C59 search_n finds the first run** — partial. `search_n_returns_first_run`, `search_n_pred_returns_first_run_partial`, `search_n_pred_wrong`. Proved for operator==. The predicate overload looks for the first element with == and is wrong for other predicates (search_n_pred_wrong); proved when the predicate is implied by equality of the first element. (Algorithm/ReadOnlyProps.lean)
* **C60 adjacent_find returns the first adjacent pair** — proved. `adjacent_find_returns_first` (Algorithm/ReadOnlyProps2.lean)
* **C61 equal and mismatch compare element-wise** — proved. `equal3_iff`, `equal4_iff`, `equal4_eq_iff`, `mismatch3_returns_first_difference`, `mismatch4_returns_first_difference` (Algorithm/ReadOnlyProps2.lean)
* **C62 copy, copy_n, copy_if, copy_backward copy exactly the elements** — proved. `copy_copies`, `copy_n_copies`, `copy_n_nonpositive`, `copy_if_copies`, `copy_backward_copies` (Algorithm/MutatingProps.lean)
* **C63 remove, remove_if compact in place** — proved. `remove_copy_if_copies`, `remove_copy_copies`, `remove_if_compacts`, `remove_compacts` (Algorithm/MutatingProps.lean)
* **C64 replace, transform, fill, generate write element-wise** — proved. `fill_fills`, `fill_n_fills`, `fill_n_nonpositive`, `generate_writes_successive_values`, `generate_n_writes_successive_values`, `replace_if_maps`, `replace_maps`, `replace_copy_if_maps`, `replace_copy_maps`, `transform_maps`, `transform2_zips`, `iota_writes_successors` (Algorithm/MutatingProps.lean)
* **C65 reverse and reverse_copy reverse** — proved. `reverse_reverses`, `reverse_copy_reverses` (Algorithm/MutatingProps.lean)
* **C66 swap_ranges exchanges two disjoint ranges** — proved. `swap_ranges_exchanges` (Algorithm/MutatingProps.lean)
* **C67 lower_bound, upper_bound, equal_range, binary_search on sorted ranges** — proved. `lower_bound_partition_point`, `upper_bound_partition_point`, `lower_bound_sorted`, `upper_bound_sorted`, `equal_range_sorted`, `binary_search_sorted`, `lower_bound_wrong_at_2_31`. Proved for ranges shorter than 2^31 elements; the distance is kept in an int, and 2^31 elements already break it (lower_bound_wrong_at_2_31). (Algorithm/SortedProps.lean)
* **C68 is_sorted/is_sorted_until find the longest sorted prefix** — proved. `is_sorted_until_returns_first_descent`, `is_sorted_iff` (Algorithm/ReadOnlyProps2.lean)
* **C69 merge is a stable merge** — proved. `merge_writes`, `merge_sorted_stable` (Algorithm/SortedProps.lean)
* **C70 min_element/max_element/minmax_element find extrema** — proved. `min_element_returns_first_min`, `max_element_returns_first_max`, `minmax_element_returns_extrema` (Algorithm/ReadOnlyProps2.lean)
* **C71 min/max/minmax return an extremum of the two arguments** — proved. `min_is_minimum`, `max_is_maximum`, `minmax_orders`, `min_tie_returns_second` (Algorithm/ReadOnlyProps2.lean)
* **C72 list copies are deep, in order and complete** — partial. `copy_copies`, `assign_copies_partial`, `construct_from_range`, `construct_n`, `assign_range_partial`, `assign_n_partial`, `assign_nonempty_ub`, `assign_range_nonempty_ub`, `assign_n_nonempty_ub`, `assign_nothing`, `self_assign_empties`. Proved for the constructors and for assignment to an empty list from another one. Assigning to a non-empty list is undefined behaviour (clear leaves head_.prev dangling), self-assignment empties the list. (Seq/ListProps5.lean)
* **C73 list operator== compares contents** — proved. `equal_compares`, `not_equal_compares`, `equal_compares_values` (Seq/ListProps5.lean)
* **C74 list memory accounting** — proved. `no_leak`, `lists_disjoint`, `destroy_frees` (Seq/ListProps5.lean)
* **C75 list elements never move** — proved. `elements_stay`, `elements_stay_or_go` (Seq/ListProps5.lean, Seq/Stable.lean)
* **C76 forward_list copies are deep, in order and complete** — partial. `copy_copies`, `assign_copies_partial`, `construct_from_range`, `construct_n`, `assign_n_partial`, `self_assign_empties`, `assign_n_own_element_ub`. Proved except for two aliasing cases where the code is wrong: self-assignment empties the list, and assign(n, v) with an own element v reads the destroyed element. (Seq/FwdProps3.lean)
* **C77 forward_list operator== compares contents** — proved. `equal_compares`, `not_equal_compares`, `equal_compares_values` (Seq/FwdProps3.lean)
* **C78 forward_list memory accounting and element stability** — proved. `no_leak`, `lists_disjoint`, `destroy_frees`, `elements_stay`, `elements_stay_or_go` (Seq/FwdProps3.lean, Seq/Stable.lean)
* **C79 forward_list swap exchanges contents** — proved. `swap_swaps`, `swap_self` (Seq/FwdProps3.lean)
* **C80 for_each and accumulate visit every element once, in order** — proved. `for_each_applies_in_order`, `accumulate_folds` (Algorithm/MutatingProps.lean, Algorithm/ReadOnlyProps2.lean)
* **C81 backward_list copies are deep, in order and complete** — partial. `construct_empty`, `construct_n`, `assign_n_partial`, `copy_loses_end`, `construct_from_range_loses_end`, `assign_loses_end`, `assign_range_loses_end`, `self_assign_empties`, `assign_n_own_element_ub`. The contents are always right for distinct lists (first parts of the *_loses_end theorems), and everything is right for (n, v). After copying a range or a list empty() is true and push_back prepends; self-assignment empties; assign(n, own element) is undefined behaviour. (Seq/BwdProps2.lean, Seq/BwdProps3.lean)
* **C82 backward_list operator== compares contents** — proved. `equal_compares`, `not_equal_compares`, `equal_compares_values` (Seq/BwdProps3.lean)
* **C83 backward_list memory accounting and element stability** — proved. `no_leak`, `lists_disjoint`, `destroy_frees`, `elements_stay`, `elements_stay_or_go` (Seq/BwdProps3.lean, Seq/Stable.lean)
* **C84 backward_list swap exchanges contents and back positions** — partial. `swap_contents`, `swap_swaps_partial`, `swap_self`, `swap_with_empty_breaks`. Contents are always exchanged; both lists stay usable if both are non-empty. Swapping with an empty list leaves the emptied one with before_end() inside the other list (swap_with_empty_breaks). (Seq/BwdProps2.lean, Seq/BwdProps3.lean)
* **C85 lazy_queue memory is bounded by its high-water mark** — proved. `memory_high_water`, `steady_state`, `no_leak`, `queues_disjoint` (Seq/LazyProps2.lean)
* **C86 lazy_queue copies are independent** — partial. `copy_copies`, `construct_n`, `assign_copies_partial`, `self_assign_empties`. Proved for the constructors and for assignment between different queues. Self-assignment empties the queue (self_assign_empties). (Seq/LazyProps2.lean)
* **C87 lazy_queue swap exchanges contents** — partial. `swap_swaps_partial`, `swap_self`, `swap_with_empty_breaks`. Proved for two non-empty queues. After a swap with an empty queue the emptied one keeps before_end() inside the other queue and its push_back inserts there (swap_with_empty_breaks). (Seq/LazyProps2.lean)
* **C88 lazy_queue elements never move** — proved. `elements_stay`, `roll_head_rolls` (Seq/LazyProps2.lean)
* **C89 vector copies are deep, in order and complete** — partial. `copy_copies`, `construct_default`, `construct_n`, `construct_from_values`, `construct_from_range`, `assign_copies_partial`, `assign_n_partial`, `assign_range_partial`, `self_assign_empties`, `assign_n_own_element_ub`, `assign_own_range_ub`. Proved except for aliasing: self-assignment empties the vector, assign(n, own element) and assign(own range) read destroyed elements (negative theorems). (Vec/Props2.lean)
* **C90 vector swap exchanges contents without moving elements** — proved. `swap_swaps` (Vec/Props2.lean)
* **C91 vector operator== compares contents** — proved. `equal_compares`, `equal_iff_same` (Vec/Props2.lean)
* **C92 vector insert and erase return the right iterator** — proved. `insert_returns_new`, `insert_one_returns_new`, `insert_values_returns_new`, `insert_range_returns_new`, `insert_element_partial`, `erase_returns_next`, `erase_one_returns_next` (Vec/Props2.lean)
* **C93 vectors are independent** — proved. `independent` (Vec/Props2.lean)
* **C94 fixed_vector erase and own-element arguments** — partial. `erase_returns_next`, `erase_empty_range_partial`, `erase_empty_range_ub`, `push_back_element`, `insert_element_partial`, `insert_own_element_ub`, `insert_own_element_wrong`. push_back is always right, insert is right for elements before the insertion point or insertion at the end. erase(p, p) and insert of own elements behind the insertion point are wrong in the code (negative theorems). (Vec/FProps.lean)
* **C95 fixed_vector copies are deep, in order and complete** — partial. `copy_copies`, `construct_default`, `construct_n`, `construct_from_values`, `construct_from_range`, `assign_copies_partial`, `assign_n_partial`, `assign_range_partial`, `self_assign_empties`, `assign_n_own_element_ub`, `assign_own_range_ub`. Proved except for aliasing: self-assignment empties, assign from own elements reads destroyed elements (negative theorems). (Vec/FProps.lean)
* **C96 fixed_vector operator== compares contents** — proved. `equal_compares` (Vec/FProps.lean)
* **C97 fixed_vectors are independent** — proved. `independent` (Vec/FProps.lean)
* **C98 sorted_vector_map searches answer by key** — partial. `reach_observes`, `at_absent_ub`, `count_inverted`. reach_observes gives Observes, whose Searches part states every search function; equal_range of an absent key is the empty range at end(), not at the lower bound. at of an absent key is undefined behaviour (at_absent_ub). (Map/SProps.lean, Map/SProps2.lean)
* **C99 sorted_vector_map insert and operator[] return the entry** — proved. `insert_new`, `insert_present`, `index_refers` (Map/SProps.lean)
* **C100 sorted_vector_map references survive growth** — proved. `references_stable` (Map/SProps2.lean)
* **C101 sorted_vector_map copies are deep** — proved. `copy_copies` (Map/SProps2.lean)
* **C102 sorted_vector_maps are independent** — proved. `independent` (Map/SProps2.lean)
* **C103 vector_map insert and operator[] return the entry** — proved. `insert_new`, `insert_element`, `insert_present`, `index_refers` (Map/VProps2.lean)
* **C104 vector_map with unique keys is a dictionary** — proved. `dictionary_history`, `new_dictionary_history` (Map/VProps2.lean)
* **C105 array operations agree with fixed-length sequences** — proved. `array_history`, `fill_own`, `empty_front_back` (Util/ArrayProps.lean)
* **C106 array operator== compares contents** — proved. `equal_compares`, `equal_iff_same` (Util/ArrayProps.lean)
* **C107 pair swap, assignment and comparison** — proved. `pair_swap`, `pair_assign`, `pair_assign_converts`, `pair_equal` (Util/Pair.lean)
* **C108 distance is the number of elements between two iterators** — partial. `distance_exact_partial`, `distance_wraps`. distance returns int: exact up to INT_MAX, and wrong for every longer range (distance_wraps). (Util/Pair.lean)
* **C109 cv and reference traits** — partial. `isConst_iff_partial`, `isVolatile_iff_partial`, `isConst_rref`, `removeConst_spec`, `removeVolatile_spec`, `removeCv_spec`, `removeReference_spec`. Proved for every type except rvalue references as arguments of is_const and is_volatile: those instantiations form a pointer to a reference and do not compile (isConst_rref). (Util/Traits.lean)
* **C110 type classification traits** — proved. `isIntegral_iff`, `isFloating_iff`, `isVoid_iff`, `isSigned_iff`, `isUnsigned_iff`, `signed_or_unsigned`, `isPointer_iff`, `isArray_iff`, `composite_iff`, `isSame_iff`, `categories_disjoint` (Util/Traits.lean)
* **C111 map/set with an equivalence-inducing comparator** — partial. `weak_calls_return_partial`, `weak_iteration_partial`, `weak_insert_partial`, `weak_find_partial`, `weak_lower_bound_partial`, `weak_erase_partial`, `find_misses_equivalent`, `erase_loses_equivalent`. False of the code: the search loops test key == x after key < x, so an equivalent unequal key sends them right: insert adds an equivalent key, then find and count miss keys that are present and insert adds an equal key twice (find_misses_equivalent, for any two equivalent unequal keys). erase(k) with an equivalent element behind k can cut off, lose and leak an innocent third element (erase_loses_equivalent, for any such keys). Proved, for all histories that never erase a key that an equivalent element follows: every call returns, iteration is weakly ascending, lower_bound and erase are right, insert/find are right unless an equivalent unequal key is present. Nothing else is missing: outside those histories the tree loses its invariants. (Rb/Weak.lean, Rb/WeakErase.lean)
* **C112 map/set arguments may be elements of the container** — proved. `own_key_is_a_copy`, `erase_own_key`, `insert_own_element`, `subscript_own_key` (Rb/Ref.lean)
* **C113 map::at refers to the value of a present key** — partial. `at_present_partial`, `at_absent_ub`. Proved for present keys. at of an absent key reads the value of the header node, which has none: undefined behaviour for every map and absent key (at_absent_ub). (Rb/At.lean)
* **C114 list merge with itself changes nothing** — partial. `self_merge`. False of the code for every non-empty list. self_merge decides the outcome for every sorted list: if two equivalent elements are followed by a greater one the call never returns, otherwise it returns with the list empty and its nodes leaked. (Seq/ListMerge.lean)
* **C115 map/set range insert and construction from container iterators** — proved. `insert_other_range`, `insert_own_range`, `construct_from_range` (Rb/Range.lean)
* **C116 algorithms taking values by reference accept elements of the range** — partial. `fill_own_value`, `fill_n_own_value`, `replace_if_own_value`, `replace_copy_own_values`, `remove_copy_own_value`, `replace_other_value_partial`, `replace_own_old_value`, `remove_other_value_partial`, `remove_own_value`. Holds for fill, fill_n, replace_if, replace_copy and remove_copy. replace and remove re-read their argument after overwriting it (as std does): proved if the argument is outside the range, and the exact other outcome is proved otherwise (replace_own_old_value, remove_own_value). (Algorithm/Alias.lean)
* **C117 container iterators are valid algorithm ranges** — proved. `list_algorithms`, `forward_list_algorithms`, `backward_list_algorithms`, `lazy_queue_algorithms`, `vector_algorithms`, `fixed_vector_algorithms`, `vector_map_algorithms`, `map_set_ranges`, `sorted_vector_map_ranges`, `array_algorithms`, `list_presents`, `fwd_presents`, `bwd_presents`, `lazy_presents`, `vec_presents`, `vec_random`, `fv_presents`, `fv_random`, `tree_presents`, `sorted_presents`, `vmap_presents`, `array_presents`. For lists with intact structure (see the self-merge and splice bugs). (Algorithm/OnArrays.lean, Algorithm/OnContainers.lean, Algorithm/OnLists.lean, Algorithm/OnLists2.lean, Algorithm/OnTrees.lean)
* **C118 algorithms call functors exactly as documented** — proved. `find_if_calls`, `find_if_not_calls`, `quantifiers_calls`, `count_if_calls`, `equal_calls`, `modifying_calls`, `copying_calls`, `find_if_any`, `find_if_not_any`, `quantifiers_any`, `count_if_any`, `equal4_any`, `equal3_any`, `mismatch4_any`, `adjacent_find_any`, `replace_if_any`, `remove_if_any`, `transform_any`, `copy_if_any`, `remove_copy_if_any`, `replace_copy_if_any`, `generate_any`, `generate_n_any`, `transform2_any`, `merge_comparisons`, `lower_bound_any`, `upper_bound_any`, `binary_search_any`, `equal_range_any`. Binary searches and count_if for ranges below 2^31 elements. (Algorithm/GenericProps.lean, Algorithm/GenericProps2.lean, Algorithm/GenericProps3.lean, Algorithm/OnContainers.lean)
* **C119 modifying algorithms work through the iterators of every container** — proved. `list_algorithms`, `forward_list_algorithms`, `backward_list_algorithms`, `lazy_queue_algorithms`, `vector_algorithms`, `fixed_vector_algorithms`, `vector_map_algorithms`, `array_algorithms`, `works`, `works_part`, `list_presents2`, `fwd_presents2`, `bwd_presents2`, `lazy_presents2`, `vec_presents2`, `fv_presents2`, `both`, `both`, `transform`, `copy`, `copy_n`, `copy_if`, `remove_copy_if`, `replace_copy_if`, `swap_ranges`, `reverse`, `reverse_copy`, `copy_backward`, `copy`, `copy_if`, `remove_copy_if`, `transform`, `merge`, `copy_left`, `copy_if_left`, `merge_any`. remove_if leaves unspecified values behind the new end (as std). Containers in different memories stand for containers of different kinds. (Algorithm/GenericProps.lean, Algorithm/GenericProps3.lean, Algorithm/OnArrays.lean, Algorithm/OnContainers.lean, Algorithm/OnLists.lean, Algorithm/OnLists2.lean, Algorithm/OnTrees.lean, Algorithm/Presents.lean)
* **C120 sorted_vector_map is memory safe with any comparator** — partial. `any_call_returns_partial`, `any_lists_partial`, `any_insert_partial`, `any_index_partial`, `any_find_sound_partial`, `any_no_leak_partial`. Missing only: maps made with sorted_vector_map(1), which overflow their array (see the finding on prealloc 1). No assumption on the comparator or the number of elements. (Map/SAnyProps.lean)
* **C121 sorted_vector_map with an equivalence-inducing comparator** — partial. `weak_sorted_partial`, `weak_lower_bound_partial`, `weak_find_partial`, `weak_insert_partial`, `weak_loses_keys`. False of the code: bsearch tests == first and goes left at an equivalent unequal key, so insert keeps all equivalent keys, and with any three of them the first is not found any more and can be inserted twice (weak_loses_keys). Proved below 2^32 elements: iteration is weakly ascending, lower_bound separates, and find and insert are right unless an equivalent unequal key is present. (Map/SWeak.lean)
* **C122 sorted_vector_map lookups are logarithmic** — proved. `find_examines_few` (Map/SWeak.lean)
* **C123 map and set with any comparator** — partial. `any_calls_return_partial`, `any_iteration_partial`, `any_insert_partial`, `any_find_partial`, `any_erase_partial`, `any_no_leak_partial`, `erase_loses_equivalent`. No assumption on the comparator. Excluded is only erase(k) while an element with key k is followed by one that k is not less than; there the property is false of the code (erase_loses_equivalent: another element is lost and leaked). (Rb/AnyProps.lean, Rb/WeakErase.lean)
* **C124 range arguments may be iterators of lists** — partial. `insert_range_partial`, `insert_range_same`, `insert_own_range_endless`, `construct_range`, `assign_part_partial`, `assign_own_range_ub`, `assign_nonempty_ub`, `insert_range_partial`, `insert_range_same`, `insert_own_range_endless`, `construct_range`, `assign_part_partial`, `assign_own_range_ub`, `insert_range_partial`, `insert_range_same`, `insert_own_range_endless`, `insert_part_at_end_loses_end`, `construct_range_same`, `construct_part_loses_end`, `assign_range_same`, `assign_part_loses_end`, `assign_own_range_ub`, `insert_range_partial`, `insert_range_same`, `insert_own_range_endless`. Proved for parts of other lists and for own parts unless the element in front of (at) the position is in the part; there the insertion never returns (insert_own_range_endless). False of the code besides: assign with a non-empty own part is UB, assign of list on a non-empty list is UB, backward_list at its end loses before_end(). (Seq/ListProps5.lean, Seq/RunBwd.lean, Seq/RunFwd.lean, Seq/RunLazy.lean, Seq/RunList.lean)
* **C125 function objects order containers and algorithms** — proved. `less_order`, `greater_order`, `exactly_one`, `equal_or_not`, `tree_descends`, `lower_bound_descending`, `upper_bound_descending`, `binary_search_descending`, `merge_descending`, `sorted_map_descends`, `greater_needs_gt`, `not_equal_to_needs_ne`, `equal_and_not` (Util/Functional.lean)
* **C126 list: exceptions leave every list intact** — proved. `call_points`, `call_outcome`, `reach`, `goes_on`, `interrupted_unique`, `push_back_strong`, `push_front_strong`, `insert_strong`, `insert_range_interrupted`, `remove_if_interrupted`, `merge_interrupted`, `lreach`, `goes_on`, `observes`, `storage`. XReach: histories without throwing constructors. LReach adds constructors that throw, which lose nodes (C127): calls still return or throw as stated and every list is seen as it should be. (Exc/ListLost.lean, Exc/ListProps.lean)
* **C127 list: a constructor that throws leaves no trace, assignment is all or nothing** — partial. `ctor_first_throw_clean_partial`, `ctor_vals_points`, `ctor_n_points`, `copy_ctor_points`, `ctor_throw_leaks`, `assign_throw_loses`, `goes_on`, `storage`, `all_destroyed`, `lost_stay`. False of the code: the destructor of a list whose constructor throws is not run, so the k elements made before the throw leak (ctor_throw_leaks; *_points: that is the only trace, other lists are unchanged; LReach.*: over any history what is lost is exactly the union of these nodes, never touched again, and everything else goes on as if nothing had been lost); operator= loses the old elements (assign_throw_loses). Proved: nothing is left when the first element throws. (Exc/ListCtor.lean, Exc/ListLost.lean)
* **C128 vector: exceptions leave every vector usable** — partial. `call_points`, `call_outcome`, `insert_counted`, `erase_counted`, `returns_same`, `fine`, `goes_on`, `throw_others_kept`, `reach_xreach`, `growth_strong_partial`, `failed_allocation_no_trace`, `throwing_copy_leaks`, `unowned_stays`, `in_place_throw_ruins`, `push_back_throw_ruins`, `erase_throw_ruins`, `resize_throw_ruins`, `reserve_can_throw`. False of the code. Proved for all histories, also those that go on after a vector was ruined (XReach.goes_on, throw_others_kept: no other vector is ever concerned): every call that reserves, constructs, or inserts into a new block has the strong guarantee except that the new block leaks if an element copy throws (growth_strong_partial, throwing_copy_leaks; failed_allocation_no_trace: no trace if the allocation fails). An insertion within the capacity or an erasure that throws leaves a vector that counts a slot without object: clear, iteration and the destructor are undefined behaviour (in_place_throw_ruins, push_back_throw_ruins, erase_throw_ruins). call_outcome says for every call and point what is left; assignments have cleared the vector first. (Exc/VecProps.lean)
* **C129 map/set: exceptions leave every container usable** — partial. `call_points`, `call_outcome`, `goes_on`, `iteration`, `lookups`, `backward_partial`, `memory`, `no_leak`, `only_copies_lose`, `insert_strong`, `erase_interrupted`, `returns`, `backward_after_throw_fails`, `erase_after_throw_loses`, `copy_leaks`, `assign_leaks`. False of the code in three ways: an erase that throws leaves the colours unrepaired, so that --it on the second of three elements gives end() (backward_after_throw_fails) and the next erase may take a second element away and leak it (erase_after_throw_loses, for every container of four elements); an interrupted copy or assignment leaks the nodes made so far (copy_leaks, assign_leaks). Proved for all histories without erase on a container whose last erase threw: every call returns or throws and goes on, forward iteration, find and lower_bound are right, insert has the strong guarantee, an interrupted erase keeps all elements in their nodes, nothing else leaks; backward iteration unless the last erase threw. (Exc/RbBad.lean, Exc/RbHist.lean, Exc/RbProps.lean)
* **C130 sorted_vector_map: exceptions leave every map usable** — partial. `call_points`, `goes_on`, `lists`, `observes`, `unchanged`, `others_unchanged`, `lost`, `memory`, `no_leak`, `separate`, `lookups`, `ruined_map`, `insert_ruins`, `insert_leaks`, `copy_leaks`, `insert_never_safe`. False of the code: every insertion of an absent key has a point where an exception does damage (insert_never_safe). Into a map with room, the map counts one element too many afterwards: an element is seen twice and destroyed twice, or iteration is undefined behaviour (insert_ruins, ruined_map); into a full map, the new array leaks (insert_leaks); a copy constructor leaks the k + 1 blocks made so far (copy_leaks). Proved for all histories in which a map whose size changed at a throw is not used again: every call returns or throws (XRuns.goes_on), call_points counts the points, all other maps keep their elements, a thrown call that did not change the size had no effect on the map, iteration and lookups are right, and only insertions into full maps and copies leak. (Exc/SBad.lean, Exc/SProps.lean)
* **C131 forward_list: exceptions leave every list intact** — proved. `call_points`, `call_outcome`, `reach`, `goes_on`, `interrupted_unique`, `push_front_strong`, `insert_strong`, `insert_range_interrupted`, `assign_interrupted`, `lreach`, `goes_on`, `observes`, `storage`. XReach: histories without throwing constructors. LReach adds constructors that throw, which lose nodes (C132): calls still return or throw as stated and every list is seen as it should be. (Exc/Fwd.lean, Exc/FwdLost.lean)
* **C132 forward_list, backward_list: a constructor that throws leaves no trace, assignment is all or nothing** — partial. `ctor_first_throw_clean_partial`, `ctor_vals_points`, `ctor_n_points`, `copy_ctor_points`, `ctor_throw_leaks`, `assign_throw_loses`, `goes_on`, `storage`, `all_destroyed`, `lost_stay`, `ctor_first_throw_clean_partial`, `ctor_vals_points`, `ctor_n_points`, `copy_ctor_points`, `ctor_throw_leaks`, `assign_throw_loses`, `goes_on`, `storage`, `all_destroyed`, `lost_stay`. False of the code, as for list: the k elements made before the throw leak (ctor_throw_leaks; *_points: that is the only trace; LReach.*: over any history what is lost is exactly these nodes, never touched again, and everything else goes on as if nothing had been lost), operator= loses the old elements (assign_throw_loses). Proved: nothing is left when the first element throws. (Exc/Bwd.lean, Exc/BwdLost.lean, Exc/FwdCtor.lean, Exc/FwdLost.lean)
* **C133 backward_list: exceptions leave every list usable** — partial. `call_points`, `call_outcome`, `reach`, `goes_on`, `interrupted_unique`, `push_front_strong`, `push_back_strong`, `insert_strong`, `insert_range_interrupted`, `assign_interrupted`, `insert_n_throw_loses_end`, `lreach`, `goes_on`, `shows`, `observes`, `storage`. False of the code for before_end(): an insert_after(before_end(), n, v) left by an exception at the second or a later copy has inserted elements but not moved before_end(), so the next push_back inserts in the middle (insert_n_throw_loses_end). Everything else is proved: elements intact, no leak, no undefined behaviour, other lists unchanged, histories go on; before_end() stays right for insertions before the last element. (Exc/Bwd.lean, Exc/BwdLost.lean)
* **C134 lazy_queue: an insertion or constructor that throws has no effect** — partial. `call_points`, `call_outcome`, `queue_observes`, `memory`, `lost_forever`, `reach_xreach`, `single_throw_partial`, `push_back_throw_leaks`, `copy_ctor_interrupted`, `ctor_n_interrupted`. False of the code only for leaks: if copying the value throws, get_node loses the node it took (push_back_throw_leaks), and a constructor that throws loses all nodes made so far (copy_ctor_interrupted, ctor_n_interrupted, with their number). Everything else is proved for all histories: call_outcome (every call returns or throws, at any of its points), single_throw_partial (no effect but at most one lost node), memory (all storage belongs to a queue or is lost). (Exc/LazyCalls.lean, Exc/LazyHist.lean, Exc/LazyProps.lean)
* **C135 lazy_queue: an insertion of several elements or assignment that throws leaves the queue usable** — partial. `call_outcome`, `queue_observes`, `memory`, `insert_range_interrupted_partial`, `insert_n_interrupted_partial`, `assign_interrupted_partial`, `assign_throw_loses`, `stale_queue`, `stale_push_back`, `insert_end_throw_loses_end`, `stale_pop_push_loses`, `stale_clear`, `stale_destroy`. False of the code: an insertion behind the last element left by an exception after the first element does not set the end, so back() is an old element (or undefined behaviour if the queue was empty) and push_back inserts in the middle (insert_end_throw_loses_end, stale_push_back), or loses its element (stale_pop_push_loses); operator= has dropped the old elements (assign_throw_loses); a node may be lost as in C134. Proved: the first elements are inserted in order and nothing else changes, the queue is fully in order if the position was not the last element or nothing was inserted; iteration is right in any case and clear() or the destructor put it right. (Exc/LazyProps.lean)
* **C136 fixed_vector: exceptions leave every fixed_vector usable** — partial. `call_points`, `outcome`, `world`, `reach_xreach`, `history_partial`, `throw_others_kept_partial`, `nothing_copied_no_throw`, `store_throw_partial`, `resize_throw`, `throw_ruins`, `push_back_throw_ruins`, `erase_throw_ruins`, `assign_throw_ruins`, `insert_throw_ruins`, `swap_equal_throw_partial`, `swap_throw_loses_element`, `swap_shorter_throw_partial`, `swap_shorter_throw_ruins`, `nothing_else_partial`. False of the code: last_ is moved before the elements are made, so every push_back, insert, assign, operator=, growing resize and erase that throws leaves a fixed_vector that counts a slot without object: reading, clear and the destructor are undefined behaviour (throw_ruins for every call of that kind and every point). A swap that throws at the third copy of an exchange loses an element (swap_throw_loses_element) and, in its second phase, ruins the shorter one (swap_shorter_throw_ruins). Proved for all histories: every call returns or throws (outcome), all other fixed_vectors stay as they were and usable, an element assignment or the first point of resize(n) has no effect, and what both fixed_vectors hold after each point of swap. (Exc/FvHist.lean, Exc/FvProps.lean)
* **C137 fixed_vector: a constructor that throws leaves no trace** — partial. `ctor_throw_partial`, `ctor_throw_leaks`, `copy_ctor_throw_leaks`. False of the code: the destructor of an object whose constructor throws is not run, so the elements made before are never destroyed (ctor_throw_leaks, all constructors and points). Proved: all other fixed_vectors are unchanged and the program can go on. (Exc/FvProps.lean)
* **C138 vector_map: exceptions leave every map usable** — partial. `call_points`, `call_outcome`, `vec`, `goes_on`, `throw_others_kept`, `reach_xreach`, `find_throw`, `count_absent_throw`, `count_present_throw`, `present_key_strong`, `full_map_strong_partial`, `full_map_leaks`, `insert_throw_ruins`, `insert_never_safe`, `put_throw`, `put_throw_leaves_default`, `erase_throw_ruins`. False of the code, for the reasons of C128: insert or operator[] of an absent key into a map with room, whose copy of the entry throws, and an erase that throws while it moves entries, leave a map whose destructor, clear and iteration are undefined behaviour (insert_throw_ruins, insert_never_safe, erase_throw_ruins); into a full map, the new block leaks if a copy throws (full_map_leaks). Proved for all histories, also those that go on after a map was ruined: every call returns or throws and leaves what Thrown says; lookups change nothing; calls with a present key and insertions into a full map have no effect when they throw; m[k] = v leaves the map as it was, with (k, T()), or ruined (put_throw); no other map is ever concerned. (Exc/VmHist.lean, Exc/VmProps.lean)
* **C139 map/set operator== compares contents** — proved. `equal_compares`, `not_equal_compares`, `equal_compares_values` (Rb/Compare.lean)
* **C140 vector requests near and above max_size()** — partial. `machine_reach`, `request_fits_partial`, `request_up_to_max_size_partial`, `storage_enough`, `machine_history_partial`, `construct_too_many_ub`, `construct_n_too_many_ub`, `insert_huge_ignored`, `resize_huge_ignored`, `resize_x_huge_ignored`, `insert_too_many_ub`, `resize_too_many_ub`, `reserve_wraps_ignored`, `reserve_too_many`, `assign_too_many_ub`. Proved for every modulus, sizeof(T) and placement of blocks: while requests are for at most max_size() elements and a number that a difference_type can count, which is the same if sizeof(T) is 2 or more (and, for reserve, elements_ + n is an address), every call does exactly what it does with natural numbers, so every theorem about vector applies, and storage has capacity() slots. False of the code above max_size(): n * sizeof(T) wraps around, so vector(n), vector(n, x), assign(n, x), insert and resize write outside the storage (_ub theorems); reserve returns without the room it promises; insert(pos, n, x) and resize convert n to a difference_type, so that from half of the range on they silently do nothing; reserve whose elements_ + n wraps around does nothing. Not proved: vectors of one-byte elements with more elements than a difference_type can count (their size() is a difference of pointers that cannot be represented). (Vec/MachProps.lean)
* **C141 vector push_back is amortized constant** — partial. `push_back_cost_partial`, `push_back_full_cost`, `push_back_total`, `push_back_quadratic`, `reserve_first_partial`, `insert_cost`, `erase_cost`. False of the code: insert_values allocates exactly size() + n, so every push_back onto a full vector reallocates; n push_backs onto a new vector make n (n + 3) / 2 allocations and copies (push_back_quadratic). Proved: the exact number for every vector and sequence; with room or after reserve one copy per element and no move; the exact cost of insert and erase of one element. (Exc/VecCost.lean)
* **C142 sorted_vector_map reallocates logarithmically often** — proved. `reallocations_logarithmic` (Map/SGrowth.lean)
* **C143 fixed_vector truncates any count** — partial. `machine_reach`, `count_fits_partial`, `insert_end_any`, `resize_any`, `assign_any`, `construct_any`, `insert_middle_partial`, `machine_fixed_history_partial`, `insert_wraps_ub`, `insert_all_ones_ub`, `insert_beyond_memory_ub`. Proved for every modulus, sizeof(T), capacity and placement: construction, assign, resize and insertion at the end truncate any count; an insertion before an element does while last_ + n is an address. False of the code beyond that: last_ + n wraps around, the test against the end of the storage fails and elements are made outside the storage (insert_all_ones_ub: insert(pos, size_type(-1), x) before any element; insert_beyond_memory_ub, insert_wraps_ub in general). (Vec/FMachProps.lean)
* **C144 list operations cost what the standard allows** — partial. `call_cost`, `relinking_free`, `insertion_cost`, `copy_cost`, `remove_cost`, `merge_cost_partial`, `merge_compares_more`. Exact counts of allocations-with-copy, comparisons and predicate calls for every legal call on every reachable memory. False of merge, which compares the element behind a moved one with the moved one first: at most 2 m + n - 1 comparisons are proved instead of m + n - 1, and merge_compares_more shows that 2 m - 1 are made whenever all m elements are smaller than the first of the n (more than m + n - 1 for m > n). (Exc/ListCost.lean)
* **C145 forward_list, backward_list, lazy_queue: one node per element, and lazy_queue recycles** — proved. `call_cost`, `relinking_free`, `insertion_cost`, `copy_cost`, `call_cost`, `relinking_free`, `insertion_cost`, `copy_cost`, `call_cost`, `relinking_free`, `insertion_cost`, `traffic_cost`. Exact counts for every legal call on every reachable memory; traffic_cost is about every sequence of push_back and pop_front that never pops an empty queue. (Exc/SlistCost.lean)
* **C146 fixed_vector: number of element copies** — proved. `call_cost`, `append_cost`, `insert_cost`, `insert_range_cost`, `erase_cost`, `copy_cost`, `fill_cost`, `swap_cost`. Exact counts for every legal call on every memory that a program with any exceptions in its past reaches. (Exc/FvCost.lean)
* **C147 a count and a value mean that many copies** — partial. `count_selected_iff_partial`, `same_type_selects_range`, `range_selected_iff`, `own_calls_count`, `lazy_ctor_count`, `map_range_insert`, `one_selected`, `unique`. Exact characterisation for every system of conversions and all types. False of the code: the templates for ranges are not restricted, so a number and a value of the same type other than size_type (two ints, say) select the range overload; only lazy_queue(n, value) has no such competitor. (Util/OverloadProps.lean)
* **C148 map/set: logarithmic comparisons, one node per element** — proved. `lookup_cost`, `insert_cost`, `insert_range_cost`, `erase_cost`, `copy_cost`, `free_cost`. Costs counts the operations that may throw: element copies with their allocation, comparator calls, == of keys. map::insert(first, last) and operator[] with their temporaries are the subject of C156. (Exc/RbCost.lean)
* **C149 The members of sorted_vector_map have logarithmic search costs** — proved. `lookup_cost`, `upper_cost`, `insert_cost`, `index_cost`, `copy_cost`, `other_cost`. Costs counts the operations that may throw: allocations of arrays, pairs with their allocation and copy, comparator calls, == of keys. The temporary make_pair(key, T()) of operator[] counts six: T(), the copy of the key to the parameter, and twice the copies of both. The bounds hold for every comparator; upper_bound needs a strict total order and fewer than 2^32 elements (its scan over equal keys is unbounded otherwise). (Exc/SCost.lean)
* **C150 Every member of vector makes an exact number of allocations and copies** — partial. `call_cost`, `making_cost`, `insertion_cost`, `removal_cost`, `resize_cost`, `reserve_cost_partial`, `assignment_cost_partial`, `assign_range_cost_partial`, `reserve_capacity_moves`, `assignment_reallocates`, `assign_range_quadratic`, `assign_range_not_linear`. Costs counts allocations and copies of elements (and the temporary T() of resize). call_cost is the exact count of every legal call, the others read it off in terms of size and capacity. Missing because false of the code: reserve(capacity()), assign(capacity(), x) and operator= from a vector of equal capacity allocate although there is room (reserve_capacity_moves, assignment_reallocates), and assign(first, last) does not reserve, so beyond the capacity it allocates for every element and costs quadratically many copies (assign_range_quadratic, assign_range_not_linear). (Exc/VecCost2.lean)
* **C151 The members of vector_map make an exact, linear number of comparisons and copies** — partial. `find_present_cost`, `absent_cost`, `present_cost`, `new_cost`, `erase_key_cost`, `base_cost`, `count_present_no_cost`. Costs counts == of keys, allocations, copies of entries (a pair is one copy), the four operations of the temporary of operator[] and assignments of values. All parts hold except that count(key) of a present key never returns, whatever number of comparisons it is given (count_present_no_cost). (Exc/VmCost.lean)
* **C152 An exception of the client's code leaves an algorithm with exactly the elements done so far** — partial. `findIf_does`, `findIfNot_does`, `quantifiers_does`, `countIf_does`, `equal4_does`, `equal3_does`, `mismatch4_does`, `adjacentFind_does`, `forEach_does`, `accumulate_does`, `lowerBound_does`, `upperBound_does`, `binarySearch_does`, `equalRange_does`, `fill_does`, `fillN_does`, `generate_does`, `generateN_does`, `iota_does`, `replaceIf_does`, `transform_in_place`, `transform_does`, `transform2_does`, `removeIf_does`, `copy_does`, `copyN_does`, `copyIf_does`, `removeCopyIf_does`, `replaceCopyIf_does`, `reverseCopy_does`, `copyBackward_does`, `merge_does`, `reverse_does`, `swapRanges_does`, `reverse_keeps_partial`, `reverse_loses`, `swapRanges_loses`. All parts hold except that reverse and swap_ranges lose an element (and have another one twice) if the second assignment of an exchange throws (reverse_loses, swapRanges_loses); reverse_keeps_partial: at every other operation reverse loses none. search, search_n, is_sorted, min_element and the like are the subject of C153. The containers present their elements by the theorems of C117-C119. (Exc/AlgoClient.lean, Exc/AlgoProps.lean)
* **C153 Searching, order tests and extrema make a bounded number of comparisons, and one that throws changes nothing** — proved. `search_does`, `searchN_does`, `searchNPred_does`, `isSortedUntil_does`, `isSorted_does`, `extrema_does`, `mismatch3_does`. Comparisons without state. Which run search_n with a predicate finds is the subject of the property on search_n. (Exc/AlgoSearchProps.lean)
* **C154 A set whose elements are assigned through iterators stays a set** — partial. `write_anything`, `scribbled_calls_return`, `scribbled_members`, `scribbled_no_leak`, `write_in_place_partial`, `edited_calls_return_partial`, `edited_members_partial`, `find_misses_rekeyed`. The first part holds for all assignments (write_anything, scribbled_*; as with any comparator, except an erase of a key that is followed by one not greater, see C123). The second part holds only for assignments that keep the element greater than those before and less than those behind it (write_in_place_partial, edited_*_partial); in every set with two elements or more there is an element to which a key can be assigned that find then misses (find_misses_rekeyed): operator* of set::iterator should answer a const reference. (Rb/Edit.lean)
* **C155 Iterating over a map or set takes two links per element, and one step and the recursive members are logarithmic** — proved. `one_step_links`, `whole_loop_links`, `clear_depth`, `copy_depth`. The counting functions (Rb/Steps.lean) are the functions of the model with one more answer; each theorem also states that they answer and leave in memory what the functions of the model do. Assignment is between different containers (self-assignment empties the container, see the property on it). (Rb/StepsProps.lean)
* **C156 Access by key, range insertion and range construction of map survive exceptions** — proved. `subscript_outcome`, `putAt_outcome`, `putAt_leaves_key`, `atPut_outcome`, `insertPairs_outcome`, `pairsCtor_outcome`, `subscript_cost`, `insertPairs_cost`. An assignment of a value that throws is taken to have assigned nothing. The temporary pair counts four operations (pair takes its parameters by value). (Exc/RbIndex.lean)
* **C157 Calls on different maps and sets touch different memory** — proved. `call_confined`, `calls_apart`, `reads_confined`. call_confined: the call, run in the memory from which everything outside the named containers has been removed (there every other access is undefined behaviour), returns the same as in the whole memory, and the whole memory afterwards is the small one together with the untouched rest. Belongs says which addresses are part of a container: its header and the positions iteration meets. The allocator is shared and assumed to be safe to call from several threads, the comparator likewise; the memory model has no notion of simultaneous accesses: that threads do not interfere is the conclusion from disjoint sets of accessed nodes. (Rb/ConfineProps.lean)
* **C158 Calls on different lists and queues touch different memory** — proved. `call_confined`, `calls_apart`, `reads_confined`, `call_confined`, `calls_apart`, `reads_confined`, `call_confined`, `calls_apart`, `reads_confined`, `call_confined`, `calls_apart`, `reads_confined`. Confined p h M: p returns in h.part M, where only the cells of M are allocated and every other access is undefined behaviour, with the same result as in h; afterwards the part of h made of M and the new cells is what the small memory became, and every other cell is the Same. Legal calls only: the calls for which the code is wrong are excluded. The allocator is shared and assumed to be safe to call from several threads; simultaneous accesses are not modelled, non-interference is the conclusion from disjoint sets of accessed cells. (Exc/SeqConfine.lean)
* **C159 Calls on different vectors touch different memory** — proved. `call_confined`, `calls_apart`, `reads_confined`, `call_confined`, `calls_apart`, `reads_confined`. Confined p h O B: p returns in h.part O B, which has only the objects of O and the blocks of B (every other access is undefined behaviour), with the same result as in h; afterwards the part of h made of O, B and what was allocated is what the small memory became, and every other object and block is the same. Legal calls only. A fixed_vector object and its storage have the same identity and end together. The allocator is shared and assumed to be safe to call from several threads; simultaneous accesses are not modelled. (Exc/FvConfine.lean, Exc/VecConfine.lean)
* **C160 Calls on different sorted_vector_maps and vector_maps touch different memory** — proved. `call_confined`, `calls_apart`, `reads_confined`, `call_confined`, `calls_apart`, `reads_confined`. Confined as in C159. Legal calls only: the calls for which the code is wrong (sorted_vector_map(1), insertion beyond 2^32 elements) are excluded. The allocator is shared and assumed to be safe to call from several threads; simultaneous accesses are not modelled. (Exc/SmConfine.lean, Exc/VmConfine.lean)
* **C161 A call that throws touches only the memory of the containers it names** — proved. `throw_confined`, `throws_apart`, `throw_confined`, `throws_apart`, `throw_confined`, `throws_apart`, `throw_confined`, `throws_apart`. Confined as in C158, for the models with exceptions (C126, C127, C131, C132, C134). A lazy_queue that an exception has left out of order (its tail is not its last node) is named by no legal call, as in C134; the others are. (Exc/ThrowConfine.lean)
* **C162 A call on vectors that throws touches only the memory of the vectors it names** — proved. `throw_confined`, `throws_apart`, `throw_confined`, `throws_apart`. Confined as in C159, for the models with exceptions (C128, C135 to C137). A vector that an exception has ruined exists no more in the specified state, so no legal call names it; the theorem holds of the calls on the others. (Exc/FvThrowConfine.lean, Exc/VecThrowConfine.lean)
* **C163 A call on maps or sets that throws touches only the memory of the containers it names** — proved. `throw_confined`, `throws_apart`. As C157 (memory from which everything outside the named containers has been removed), for the model with exceptions of C129. Legal as there: an erase on a container whose last erase threw is not covered (C129 shows that it may lose elements). operator[] of map is not among these calls. (Exc/RbThrowConfine.lean)
