# Formal model of raalkml/ttl in Lean 4

Source: `/repo` (header-only C++ library in `/repo/ttl`), read as text. Model and proofs:
`/verif/lean/Verif`. Properties: `properties.jsonl`. Status per property: `MANIFEST.json`; the table at
the end of this file is generated from both (`tools/design.py`). Axioms per theorem: `AXIOMS.txt`.
Seeded bugs: `seeded/LOG.jsonl`.

## 1. Execution model (`Verif/Base.lean`)

Every modelled C++ function is a `Prog σ α := σ → Res (α × σ)` over an explicit memory `σ`. The
outcome `Res` distinguishes `ok`, `ub` (undefined behaviour: bad pointer / object lifetime /
arithmetic) and `diverge` (the call never returns). Loops are written as recursive definitions with
`partial_fixpoint` over the flat order with bottom `diverge`, so a model loop makes exactly the
iterations of the C++ loop, with no fuel bound; termination is part of what is proved (`= .ok …`).
Undefined behaviour is an outcome, not a precondition: a theorem that says a call is `.ok` says that it
touches no invalid memory.

* Linked structures (list, forward_list, backward_list, lazy_queue, rbtree): a heap of nodes as one
  function per field (`next`, `prev`, `val`, ... : address → content) plus a `live` map. `new`
  returns a fresh address, `delete` kills it; any access to a dead or null address is `ub access`.
  A value may be absent in a live node (header nodes; pooled nodes of lazy_queue): reading,
  destroying or overwriting-by-construction in the wrong state is `ub lifetime`.
* Contiguous containers (vector, fixed_vector, sorted_vector_map, vector_map): storage is a block of
  slots, each raw or holding an object; construction needs a raw slot, read/assign/destroy need an
  object; a freed block is inaccessible. Pointers are (block, offset).
* `const T &` arguments that may alias the container are modelled by a reference datatype (`Arg`,
  `Src`) and are read at the moment the C++ code reads them.
* Algorithms: read-only ones are generic over an abstract iterator interface with a `Range`
  predicate, mutating ones work on a flat memory of cells (`Mem`).
* bitset: an array of 64-bit words (`BitVec 64`); `int`/`unsigned` wrap-around is modelled where the
  code narrows (`count`, `distance`, `bsearch`).
* type traits: C++ types are terms, class templates with partial specialisations are functions.

## 2. Shape of the proofs

1. `…Model.lean`: the functions of one header, statement by statement, each with its file:lines.
2. lemma files: each pointer routine transforms a representation predicate (ring, path, layout, tree
   with zipper); loops by induction on the represented sequence.
3. `Reach`: the memories a client can get to by constructors, calls and destructors on any number of
   containers. An invariant (`World`, `Inv`) is proved for all of them, by induction on the history.
4. `…Props*.lean`: the theorems of `MANIFEST.json`. They speak about `Reach` and about what a client
   observes (`Observes`, `Shows`: the results of the model's own `begin/end/++/*`, `size`, `front`,
   `back`, `operator[]`, ...), against mathematical lists, finite maps and sets. Next to each there
   is an `example` instantiating it on a concrete reachable memory.
5. Where the English property is false of the code, the file contains (a) a theorem refuting it, for
   all states of the bad kind and not only one witness where possible, and (b) a theorem with the
   suffix `_partial` with the exact condition under which it holds, or the exact wrong effect.

| group | model | how proved |
|---|---|---|
| C01–C16 map/set/rbtree | pointer program over an rbnode heap, `rbnode**` as an `Edge` | the heap represents a tree, each pointer routine refines a routine on zippers, zipper routines preserve order + colour invariants (left-leaning red-black); histories by induction in a client language with containers, iterators and queries |
| C111–C113 map/set: weak orders, own arguments, at | same; `KeyRef`/`ValRef` arguments read in the heap at each use (`Rb/RefModel.lean`); `erase` with a reference is related to `erase` of the copy by fixpoint induction | same invariants; weakly sorted trees |
| C115 map/set ranges of container iterators | the loop walks the source tree while inserting (`Rb/Range.lean`) | the walk commutes with insertions into a disjoint tree |
| C114 list self-merge | the list model | loop invariant of the relinking loop; divergence by a cycle of states (`Seq/ListMerge.lean`) |
| C116 algorithms with arguments inside the range | the argument is a cell read at each use (`Algorithm/Alias.lean`) | induction on the range |
| C17–C28, C72–C75 list | doubly linked ring with header node | segment predicate, each operation transforms the represented sequence |
| C29–C31, C76–C79 forward_list | singly linked list with header | path predicate |
| C32, C81–C84 backward_list | as above + tail pointer | same |
| C33–C34, C85–C88 lazy_queue | as above + pool | same + lifetimes of the node values |
| C124 ranges of lists as arguments | same models; `first`, `last` are iterators followed while the loop inserts (`Seq/Run*.lean`) | the loop equals the loop over an array of the values when the insertion point is outside; fixpoint induction for the endless case |
| C125 function objects | the operators of the type as parameters; containers and algorithms with `greater` | order laws from the operators', then the general theorems |
| C126 on: exceptions | `Verif/Exc`: the same functions with numbered points where an allocation, copy, comparison or predicate may throw; the `k`-th one does (`Thr`), unwinding runs the destructors of finished objects only | `Points`: a call passes n points, without exception it is the model's call, and at each point k an invariant of the memory left behind |
| C35–C39, C89–C93 vector | slot block | layout `xs, gap, ys` of the slots; loops move the gap |
| C140 vector with machine numbers | `Vec/MachModel.lean`: products modulo W, difference_type, addresses | refinement to the model with natural numbers up to `max_size()` elements (counted by a difference_type); above, the wrong effect |
| C141 cost of vector | the points of `Verif/Exc` (allocations, element copies) counted | exact counts per call, summed by induction |
| C142 reallocations of sorted_vector_map | a client that watches begin() | growth invariant: two reallocations double the array |
| C143 fixed_vector with machine numbers | `Vec/FMachModel.lean`: comparison of addresses modulo W in insert | refinement while last_ + n is an address (always, except before an element); beyond, undefined behaviour |
| C144 cost of list | `Exc/ListModel.lean` counts node creations, comparisons, predicate calls | exact count `work` for every call; merge: upper bound and lower bound |
| C145 cost of forward_list, backward_list, lazy_queue | `Exc/FwdModel.lean`, `Exc/LazyModel.lean` count node creations, allocations and copies | exact count per call (`Exc/SlistCost.lean`); push/pop programs by induction, the number of nodes of the queue being max of past sizes |
| C146 cost of fixed_vector | `Exc/FvModel.lean` counts constructions and assignments of elements | exact count per call (`Exc/FvCost.lean`) |
| C147 overload selection | `Util/Overload.lean`: deduction, viability, ranking; the overload sets of all containers | case analysis over the sets for arbitrary conversions |
| C148 cost of map and set | `Exc/RbModel.lean` counts node creations, comparator calls and `==` of keys | `Spends`: cost bounded by a multiple of the comparator calls, compositional (`Exc/RbCost.lean`), with the bounds of C04 |
| C149 cost of sorted_vector_map | `Exc/SModel.lean` counts arrays, pairs, comparator calls and `==` of keys | `Within` and `At`: compositional upper bounds in every memory and in a given one; halving by `fixpoint_induct` (`Exc/SCost.lean`) |
| C150 cost of vector | `Exc/VecModel.lean` counts allocations and copies of elements | exact count of every legal call after any history (`call_cost`), then in terms of size and capacity (`Exc/VecCost2.lean`) |
| C151 cost of vector_map | `Exc/VmModel.lean` counts comparisons, allocations, copies | exact counts after any history, from those of vector (`Exc/VmCost.lean`) |
| C152 exceptions in algorithms | `Exc/AlgoModel.lean`: each algorithm with a point before every functor call and element assignment | `Does`: same result as the generic algorithm without exceptions, exact number of points, state after each point; induction on the range |
| C153 comparisons of searching algorithms | `Exc/AlgoSearch.lean`: search, search_n, is_sorted, extrema, mismatch with a point before every comparison | `Reads`: same result and memory, number of comparisons; induction on the range |
| C154 writing through set iterators | `Rb/Edit.lean`: histories of set members and `*it = v` | ordered world (assignments in place) and unordered world (any assignment, as for C123); negative: descent of `find` at the root |
| C155 links and recursion depth | `Rb/Steps.lean`: walking, clearing and copying functions again, with the number of links followed or activations alive | induction on trees in context: leftmost path + costs of all `++` = 2(size-1) + way out; depth = height, balanced |
| C156 `operator[]` and range insertion of map, exceptions and cost | `Exc/RbIndex.lean`: `operator[]`, `m[k] = t`, `m.at(k) = t`, `insert(first, last)`, `map(first, last)` with the four operations of the temporary pair | simulated by the calls of C129 (`find`, `insert`, `insertRange`, `store`, `destroy`), so that programs go on in `XReach`; costs from `Spends` |
| C157 confinement of map and set | `Rb/Confine.lean`: every member runs in a larger memory as in a smaller one (`Confined`, closed under sequencing and loops by fixpoint induction); `Rb/ConfineProps.lean` | the invariant of reachable memories holds of the memory cut down to the named containers, so the call returns there (`call_ok`); `Confined` carries the run over to the whole memory |
| C158 confinement of list, forward_list, backward_list, lazy_queue | `Exc/SeqConfine.lean` over `Framed` (`Exc/SeqFrame.lean`, `ListFrame`, `SlistFrame`: members run in a larger memory as in a smaller one) | the world of the named containers is a world of its own (`World.part`), so the step theorems give the run there; `Framed` carries it over |
| C159 confinement of vector, fixed_vector | `Exc/VecConfine.lean` over `Framed` (`Exc/VecFrame.lean`), `Exc/FvConfine.lean` with `Framed` for the members of fixed_vector | as C158: the named vectors with their blocks are a world of their own, the step theorem gives the run there, `Framed` carries it over to the whole memory |
| C160 confinement of sorted_vector_map, vector_map | `Exc/SmConfine.lean`, `Exc/VmConfine.lean` | as C159, with `Framed` for their members |
| C161 confinement of calls that throw | `Exc/ThrowConfine.lean` over `FramedT` | a program that destroys all containers but the named ones reaches the memory that has only these (`reach_part`), so the theorems about one call with exceptions apply there; `FramedT` carries the run over to the whole memory |
| C162 confinement of calls on vectors that throw | `Exc/VecThrowConfine.lean`, `Exc/FvThrowConfine.lean` over `FramedT` | the vectors named are a world of their own (`part_without`, `WorldL.part`), where the theorems about one call with exceptions apply; `FramedT` (for fixed_vector, whose storage is part of the object, `FramedET`) carries the run over to the whole memory |
| C163 confinement of calls on maps and sets that throw | `Exc/RbThrowConfine.lean` | `ConfinedT`: what a member does in a memory, it does in every larger one, wherever an exception appears, also through the unwinding of constructors; the containers named, alone, satisfy the invariant of C129 (`Inv.only`), where `call_points` applies |
| C40–C42, C94–C97 fixed_vector | slot block of N | same |
| C43–C45, C98–C102 sorted_vector_map | slot block of pointers to pairs | refinement to a sorted association list |
| C123 map/set with any comparator | same, trees with no order (`Rb/Any*.lean`) | the structural and balance part of the invariant does not use the order |
| C120–C122 sorted_vector_map with any comparator | same model; the search as a function on sequences (`Map/SAny.lean`) | the invariant without order; a stability argument adds weak order; cost: the result depends on at most d entries |
| C46, C103–C104 vector_map | model of vector + scan | refinement to an association list |
| C47–C54 bitset | words | bitwise extensionality |
| C55–C71, C80 algorithms | iterator interface / cells | induction over the range |
| C117–C119 algorithms on any iterator | an iterator type is a set of operations on a memory, functors may have state (`Algorithm/Generic*.lean`, `OnTrees`, `OnContainers`) | windows of distinct iterators presenting a sequence; induction on the range; each container's `begin()`/`end()` is shown to be such a window |
| C105–C108 array, pair, distance | cells | histories by induction |
| C109–C110 type traits | types as terms | structural induction |

## 3. What is modelled, per header

| header | modelled | not modelled |
|---|---|---|
| algorithm.hpp, numeric.hpp | every function template of the files | value arguments (`const T &`) of the mutating algorithms are values unless a theorem says otherwise; user functions are pure (generate: a state machine) in ReadOnly.lean/Mutating.lean; Generic.lean models the algorithms again for any iterator type and functors with state |
| array.hpp | everything | reverse iterators (none in the header) |
| backward_list.hpp | everything outside `#if TODO` | the `#if TODO` part |
| bitset.hpp | everything | stream output |
| fixed_vector.hpp | everything | |
| forward_list.hpp, slist_node.hpp | every defined function | resize, remove, remove_if, unique, merge, sort: declared only |
| functional.hpp | less, greater, equal_to, not_equal_to over the operators of the type (`Util/Functional.lean`); elsewhere comparators are parameters | the argument typedefs |
| lazy_queue.hpp | every defined function | remove, remove_if: declared only |
| list.hpp | every defined function | sort: declared only |
| map.hpp, set.hpp, rbtree.hpp | every defined function | erase(iterator), hinted insert, swap: declared only. Allocation is `new`, which does not fail |
| sorted_vector_map.hpp | every defined function | erase, operator=, range constructor, insert(range), hinted insert, swap: declared only |
| type_traits.hpp | all traits | enable_if (no run-time effect), true_type/false_type |
| utility.hpp | pair, make_pair, swap, distance, advance | |
| vector.hpp | every defined function | |
| vector_map.hpp | everything | |
| ttl.hpp, types.hpp | — | includes and usings only |

Simplifications that hold everywhere (the README declares the library to be for programs without exceptions): within one call, and for the contiguous containers
throughout, allocation never reuses an address (so a dangling pointer is never accidentally valid again); for the linked containers (list, forward_list,
backward_list, lazy_queue, map/set) histories contain steps of the rest of the program (`Env`), in which storage that is not allocated is written arbitrarily and
the address handed out next becomes any beyond the storage in use, so storage given back may be handed out again; outside `Verif/Exc` (C126 on) allocation never fails and element copy, destruction and comparison do not
throw; element operations return and do not touch the container; comparators and predicates are pure functions;
`size_type` counters are unbounded natural numbers except where the code narrows to `int`/`unsigned` and in C140 and C143, where `vector` and `fixed_vector` are modelled with
the modulus of `size_type`, `sizeof(T)` and addresses (`Verif/Vec/MachModel.lean`, `Verif/Vec/FMachModel.lean`);
forming a pointer past the end of a block is plain arithmetic (`vector::reserve` on an empty vector and
`fixed_vector::insert` form such pointers only to compare them, which C++ forbids); overload
resolution is modelled only in C147: elsewhere `insert(pos, n, x)` is the count version, which in C++ needs arguments of different types;
`vector_map` hides `vector`'s `operator[]`, `at`, `insert`, the client observations of C104 use the base-class
versions; `const`-correctness, timing (except the comparison count of C04) and concurrency (the library
has none) are not modelled; C157 to C163 say which memory a call accesses.

## 4. Trusted base

* Lean 4.33.0 kernel. Axioms: `propext`, `Quot.sound`, `Classical.choice` at most; the exact list for
  every theorem of the manifest is in `AXIOMS.txt`. No axioms of our own, no compiled evaluation.
* The reading of the C++ code: that each definition says what the cited lines do. Nothing is proved
  about the compiled code itself.
* The specification functions used in the statements (small, at the head of the `Props` files).

## 5. Findings: where the code deviates from the property a user relies on

Each is a theorem about the model (named in the table of section 6).

* **list.hpp, forward_list.hpp, backward_list.hpp, lazy_queue.hpp**: `insert(pos, first, last)` with a range of the list itself that
  contains the element the new ones are put behind never returns (so `l.insert(l.end(), l.begin(), l.end())`);
  `assign` with a range of the list itself is UB.
* **list.hpp**: `erase(first, last)` leaves the last element of the range, `erase(p, p)` is UB; `clear()` leaves
  `head_.prev` dangling, so the next insertion is a use after free; `resize(0)` does nothing; `splice` of an empty
  range or list corrupts both lists, `splice` to `pos == last` in one list loses elements; `swap` of two empty lists
  links each header to the other; `operator=` on a non-empty list is UB, self-assignment empties; `remove(v)` with `v`
  an element of the list reads it after it was freed; `a.merge(a)` empties the list and leaks its nodes or never returns.
* **list.hpp**, exceptions: a constructor whose element copy throws leaks the elements made before; `operator=` that throws has lost the old elements.
* **forward_list.hpp, backward_list.hpp**, exceptions: as for list.hpp; besides, an interrupted `insert_after(before_end(), n, v)` of backward_list leaves
  `before_end()` at the old last element although elements follow it.
* **lazy_queue.hpp**, exceptions: `get_node` loses the node it took from the pool or the allocator when copying the value throws; an insertion of several
  elements behind the last one that throws leaves `tail_` at the old last element: `back()` is wrong (UB if the queue was empty), `push_back` inserts in the
  middle, and after `pop_front` past that element `push_back` links its element to a pooled node and loses it; `operator=` that throws has lost the old
  elements; a constructor that throws leaks its nodes.
* **rbtree.hpp** (map, set), exceptions: an `erase` left by an exception of the comparison does not repair the colours it changed on its way down. The
  root may then be red, and `--` takes a red root for the header; the next `erase` may cut off and leak an element it was not asked to erase (four
  elements, exception in `erase` of the last, then `erase` of the second: the last is gone). Copies that throw leak the nodes copied so far.
* **vector.hpp**, exceptions: `push_back`, `insert`, `resize` within the capacity and `erase` that throw leave a vector that counts a slot without an
  object, so its destructor is undefined behaviour (`last_` is incremented before the constructor runs, and set after the whole shift in `erase`);
  reallocating calls and constructors leak the new block when an element copy throws; assignments have lost the old elements.
* **vector.hpp**, cost: a reallocation makes room for exactly the elements asked for, so every `push_back` on a full vector reallocates and copies all
  elements: appending n elements to a new vector costs n (n + 3) / 2 allocations and copies. `assign(first, last)` does not reserve either: beyond the
  capacity it reallocates once per element. `assign(capacity(), x)` and `=` from a vector of equal capacity allocate although there is room (C150).
* **fixed_vector.hpp**: `insert(pos, n, x)` before an element computes `last_ + n`; for a count so large that this wraps around (`size_type(-1)` always does)
  elements are made outside the storage, although everywhere else counts are cut to the capacity (C143).
* **all sequence containers**: `c(n, x)`, `assign(n, x)`, `insert(pos, n, x)` with two arguments of one type other than `size_type` (`vector<int> v(10, 0)`) select the
  unrestricted template for ranges, whose body takes the numbers for iterators and does not compile (C147).
* **list.hpp**, `merge`: after moving an element before `i` it continues with `i = ` the moved element, so that the next element is compared with the moved one, too:
  up to 2 m + n - 1 comparisons, where std::list allows m + n - 1 (C144).
* **fixed_vector.hpp**, exceptions: `last_` is moved before an element is made (`new(last_++) T(x)`), so every `push_back`, `insert`, `assign`,
  `operator=`, growing `resize` and every `erase` with elements behind it that throws leaves a fixed_vector that counts a slot without an object: reading,
  `clear` and the destructor are UB. `swap` that throws may lose an element (both hold the other's copy) or ruin the shorter fixed_vector the same way; a
  constructor that throws never destroys the elements made before.
* **sorted_vector_map.hpp**, exceptions: `insert` of a new key that throws while making the pair leaves a map that counts one element too many (`last_` is
  incremented and the pointers are moved first): the element behind the position is seen twice and deleted twice, or the last slot is a stray pointer. With a
  full array the new array leaks; copies that throw leak everything made so far.
* **forward_list.hpp / slist_node.hpp**: `splice_after(pos, empty)` drops the tail of the destination, an empty range
  between two lists makes them share nodes, moving an element behind itself or a range to its own start loses
  elements; self-assignment empties; `assign(n, own element)` is UB.
* **backward_list.hpp**: inserting/assigning/copying a range at the end leaves `tail_` stale; `pop_front` of the only element
  and `reverse` of an empty list break the back position; `swap` with an empty list corrupts; self-assignment empties;
  `assign(n, own element)` is UB.
* **lazy_queue.hpp**: `cleanup()` and the destructor destroy pooled values a second time; `swap` with an empty queue leaves
  `before_end()` in the other queue; self-assignment empties.
* **vector.hpp**, large requests: `n * sizeof(T)` is not checked against overflow, so `vector(n)`, `vector(n, x)`, `assign(n, x)`, `insert(pos, n, x)` and
  `resize(n)` above `max_size()` write outside their storage, and `reserve(n)` returns without the room; `insert(pos, n, x)` and `resize(n)` that add
  half of the range of `size_type` or more silently do nothing (C140).
* **vector.hpp**: `erase(p, p)` for `p != end()` is UB; inserting an own element within capacity is UB or inserts another
  element; `assign` from own elements is UB; self-assignment empties; `reserve(capacity())` reallocates.
* **fixed_vector.hpp**: `swap` with a shorter vector is UB; `erase(p, p)`, own elements, self-assignment as in vector.
* **sorted_vector_map.hpp**: `count` is inverted; a map constructed with room for 1 never grows and the second insertion
  writes out of bounds; the search sees the size modulo 2^32; `equal_range` of an absent key is `(end, end)`;
  `at(absent)` is UB; with a comparator under which unequal keys are equivalent, equivalent keys are all kept and present keys
  are missed.
* **vector_map.hpp**: `count` of a present key never returns; `at(absent)` is UB. Exceptions as in vector: an insertion into a map
  with room or an erasure that throws leaves a map that cannot be destroyed; an insertion into a full map leaks the new block.
* **rbtree/map/set**: `rbtree::count` undercounts duplicates; `map/set::upper_bound` and `equal_range` of an absent key skip an
  element; self-assignment empties; with a comparator under which unequal keys are equivalent, lookups miss present keys and
  `insert` adds equal keys twice, and `erase` of a key followed by an equivalent one removes and leaks another element, too;
  `map::at(absent)` is UB.
* **set.hpp**: `set::iterator` gives write access to the keys (`*it = v` compiles); a key assigned out of order is seen by loops but not by `find` (C154).
* **bitset.hpp**: `set(i, false)` does nothing; `b[i] = b[j]` clears the rest of the word; widening assignment copies padding
  bits; string and `bitset<0>(v)` constructors write out of bounds; `all()` of `bitset<0>` is false.
* **algorithm.hpp, utility.hpp**: `reverse` and `swap_ranges` exchange by copying; if the second assignment of an exchange throws,
  one element is lost and another is there twice.
* **algorithm.hpp, utility.hpp**: `search_n` with a predicate compares the first element with `==`; `lower_bound` and friends,
  `count`, `distance` keep numbers in `int` and are wrong from 2^31 on; `replace` and `remove` with the value argument inside the
  range re-read it after overwriting it.
* **map.hpp** (read off the text, no theorem): it declares the three-iterator `ttl::equal` before `operator==` calls the four-iterator one, so that
  comparing maps does not compile unless algorithm.hpp is included before map.hpp (set.hpp and list.hpp declare the right one).
* **type_traits.hpp**: `is_const<T &&>`, `is_volatile<T &&>` do not compile; `is_unsigned<bool>` is false, `is_scalar` is false
  for enumerations and member pointers.

## 6. Properties and theorems

