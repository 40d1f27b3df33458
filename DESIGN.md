# Formal model of gtl (greg7mdp/gtl) in Lean 4

Source modelled: `/repo/include/gtl/*.hpp` (pinned commit, read as text, never built or run).
Proof assistant: Lean 4.33.0 with Mathlib. Project: `/verif/lean`; `lake build` checks everything.

* `properties.jsonl`: the properties in English.
* `lean/Verif/Spec`: the specifications. They know nothing about the code.
* `lean/Verif/Props`: the property theorems, each followed by an example that meets its hypotheses.
* `MANIFEST.json`: which theorems prove which property.
* `seeded/LOG.jsonl`: wrong programs the theorems were tested against.

## Trusted base

* Lean's kernel. No axioms of our own, no `sorry`/`admit`, no `native_decide`, no `bv_decide`.
  Every theorem in `MANIFEST.json` depends at most on `propext`, `Classical.choice` and `Quot.sound`
  (checked with `#print axioms` after every milestone). Concrete evaluations use `decide +kernel`, that is the
  kernel itself.
* The correspondence between the C++ text and the Lean definitions, function by function. Every model definition
  cites the file and lines it models and states its simplifications.
* The statements of the specifications in `Verif/Spec` and of the vocabulary files `Verif/Props/*Defs.lean`.
* The modelling conventions below.

## Conventions

* **Outcomes.** Operations that can run into undefined behaviour, or loop for ever, return
  `Res α = ok a | ub | hang` (B-trees: `ok | ub`, with fuel proved to suffice). A theorem "`op s = ok r`" therefore
  also says that no out-of-bounds, raw-storage or freed-node access happens, that no `assert` fails and that the
  loops terminate.
* **Integers.** `size_t` quantities are `Nat` except where the code relies on, or suffers from, wrap-around; there it
  is explicit (`usub`, `% 2^64`, `BitVec`). `size_t` has 64 bits.
* **User functors.** Hash functions are arbitrary; equalities are arbitrary Boolean equivalences compatible with the
  hash; comparators are arbitrary strict weak orders. They do not throw and have no side effects unless a property
  says otherwise (C15, C50, C57, C81, C82, C87, C88, C91, C103, C106).
* **Memory.** A slot is `Option α`: `none` is raw storage. Reading raw storage, constructing over a live object,
  destroying a raw slot and freeing a block that still holds objects are `ub`. B-tree nodes and intrusive objects
  live in a heap of addresses; freed addresses are dead.
* **Concurrency.** Threads are interleaved step by step under sequential consistency; a step is a lock operation, one
  access in a critical section or one atomic action. That data-race-free programs behave sequentially consistently is
  trusted (C++ memory model); that the critical sections are free of data races is proved with happens-before (C93), and
  for the deletion of intrusive objects happens-before is part of the model (C92). A race is a distinct outcome in the machines of C22-C25. Calls that are not atomic
  (`for_each`, `clear`, `merge`, ...) are specified by a plan: one atomic step per part of the container
  (`Spec/Stepwise`). A shared lock is granted whenever nobody holds the mutex exclusively; mutexes that prefer waiting
  writers could block two threads that each hold a shared lock and want another one, so "no deadlock" (C72) is about
  mutexes that do not. `std::lock` is one step that takes both mutexes when both are free.
* **Not modelled anywhere:** template and overload resolution, allocators that compare unequal outside C89, failing allocation
  (except in `gtl::vector`, B-trees (C76), hash containers (C77), `soa` (C78) and `bit_vector` (C79), where it is an
  outcome), sanitizer hooks, debug-only checks (unless a comment says so), running time. Work is counted in
  calls of user code: hash calls and element moves of hash containers (C83), element moves of `gtl::vector` (C84),
  comparisons of B-trees (C85).

## Modules

| directory | code | contents |
|---|---|---|
| `Base` | - | `Res` monad |
| `Swiss` | `phmap.hpp` 120-3200, 5597-5608, `phmap_dump.hpp` | control bytes, SSE2 and portable groups, `raw_hash_set`, `raw_hash_map`, dump and load. Flat and node containers share this model: for node containers the element type is the owned node |
| `Parallel` | `phmap.hpp` 3200-4500, `phmap_dump.hpp` | `parallel_hash_set/map`, one thread, dump and load |
| `Conc` | `phmap.hpp` 340-560, 3200-4500 | thread machine, lock guards, linearizability, counting; `Multi*`, `Share*`: threads that hold several locks, operations on whole containers |
| `Lru`, `Memo` | `lru_cache.hpp`, `memoize.hpp` | caches on top of the parallel map, one thread and many |
| `Bits` | `bit_vector.hpp` | storage words, `visit`, views, hex and text conversions |
| `Soa` | `soa.hpp` | columns, reorder loop, scratch data shared by sorts (`Soa/Scratch.lean`) |
| `Intrusive` | `intrusive.hpp` | counters and pointers, one thread and many |
| `Vec` | `vector.hpp` | buffers, exceptions, aliasing |
| `Btree` | `btree.hpp` | nodes with parent pointers, split, merge, rebalance, all containers |
| `Mem` | `gtl_base.hpp` 251-645, 899-925, `btree.hpp` 626-642, 856-912, `phmap.hpp` 1544-1549 | memory layouts with 64-bit sizes: hash tables, B-tree nodes |
| `Alloc` | constructors, assignments, `swap` of `phmap.hpp`, `btree.hpp`, `vector.hpp` | which allocator owns which block |
| `Utils` | `utils.hpp`, `adv_utils.hpp`, `vec_utils.hpp`, `phmap_utils.hpp`, `bits.hpp`, `stopwatch.hpp` | small functions, hashing, stopwatches |

## Parts of the code that are not modelled

* `phmap.hpp`: the table model has no addresses (except for C97), `Mem` models where its arrays lie in their block; `infoz`/sampling. In `parallel_hash_set`: iterators, `find`, `extract(key)`,
  `operator[]` and `size()` take no lock, so they are excluded from the concurrency theorems. Also excluded there: the
  policies `unseq` and `par_unseq` of `for_each`, callbacks that call back into the container (treated by C115 and C116), `NullMutex`,
  containers with different mutex types in one `swap`.
* `lru_cache.hpp`: `clear()` with an auxiliary mutex type and the constructor's debug assertion (`_max_size > 2`).
* `memoize.hpp`: the alternatives in `lazy_list` that are switched off; concurrent `reserve` and `size`; the factor `n * 1.1f` is an arbitrary function.
* `intrusive.hpp`: user-written destructors, stack depth of deletion cascades.
* `bits.hpp`: compiler built-ins and intrinsics (the portable code is modelled).
* `vector.hpp`: jemalloc paths, `steal_data` (cannot be instantiated), throwing
  comparisons, inserting ranges that lie in the vector itself.
* `btree.hpp`: throwing constructors outside the property about them, iterator arithmetic beyond
  `++`/`--`, `dump`/printing of trees.
* `meminfo.hpp`, `gtl_config.hpp`, `phmap_fwd_decl.hpp`: not modelled (operating system,
  configuration).

## Findings that are not theorems (found by reading)

* `combinators.hpp` begins with `pragma once` without `#` and does not compile.
* `parallel_hash_set::clear()` of the LRU cache with an auxiliary mutex, `intrusive_ptr`'s converting copy assignment,
  `vector::steal_data`, and `btree_set_container(init, alloc)` do not compile when instantiated.
* `vector::Impl::data()` returns the end of the storage; move assignment of vectors is a swap.
* `btree_container::erase(key)` calls a function that does not exist (hidden by the derived classes); merging a multiset into itself empties it; `btree_map` has no
  `insert_or_assign`; nodes are only guaranteed to hold between 1 and `kNodeValues` values.
* When the hash function throws in `emplace` with arguments that are not a key (phmap.hpp:2571-2588), the temporary element
  is never destroyed; the rehash and copy loops are modelled for C87.
* `parallel_hash_set::emplace(args...)` and `emplace_with_hash` with arguments from which no key can be read
  (phmap.hpp:3720-3733, 3791-3808) do not compile when instantiated, and would hash the slot before constructing the key.
* `soa::sort_by_field` keeps its scratch data in a `thread_local` object; a comparison that itself sorts a table of the same
  type with the same function resizes the range that `std::stable_sort` is working on.

## Findings that are theorems

Each line is proved, with the theorem that says so; the properties concerned are `partial` for that reason.

* An exception of an element constructor makes `size()` one too large for good (C15), and thirty of them in a table with
  erasures give a table in which lookups never end (C81); so does an exception of the constructor callback of
  `lazy_emplace_l` (C91).
* An exception of the hash function while a table grows or is rehashed in place loses elements; `size()` counts them (C87).
* A comparison that throws in `merge` of B-tree containers with duplicates leaves elements in both containers, or a source
  out of order (C88).
* Hash containers give memory to the wrong allocator if the allocator propagates on assignment and not on `swap`; B-tree
  move assignment consults the trait of copy assignment; moved parallel containers get a default allocator (C89).
* A memoized function that throws, with the LRU cache, can make later calls wait for ever (C82).
* Sorting a `soa` without rows clears a `bit_vector` without bits, which is undefined (C39, C100).
* `resize(size() + 1)` on a vector copies all elements each time: quadratic growth (C84).
* `slice` with a stride that does not divide the length drops the last element (C46).
* The source of a move construction of a bit vector keeps its size and has no storage (C86).
* A hash container that was moved from has lost its hash function object (one like `std::function` throws from then on), which
  the comment in the move constructor rules out; `merge` and `==` of parallel containers with different function objects are
  wrong (C94). A B-tree container that was moved from by assignment has the comparison object of the other one, by construction
  the remains of its own (C95).
* If the key of a map element has to be copied and copying throws while a B-tree node shifts its elements, a place that
  counts as an element is left without one; while elements go to another node, objects that do not count are left and never
  destroyed (C125).
* Nested uses of one stopwatch by `start_snap` measure the inner block (C123).
* `swap` invalidates the iterators of parallel hash containers, which the documentation denies: they keep pointers to the
  container they were made for (C101). `reserve(n)` of these containers does not make room for `n` elements (C102).
* If copying a key throws while an LRU cache inserts, an entry that is not found stays in the cache; it exceeds its size and
  may lose a newer entry, and a copy that throws after the eviction leads to undefined behaviour (C103).
* The generated copy assignment `*a = *a->next` of counted objects with two pointers is undefined when only `a` owns the
  source: the first member's assignment deletes it (C105).
* When something that matches several keys is looked up in a B-tree set or map, `count` is 1, `erase` removes one match,
  and with a three way comparison `lower_bound` need not be the first match (C107).
* Hash containers with a transparent hash: when a thing that is not a key equals several keys, `count` says 1, `equal_range`
  holds one of them and `erase` removes one (C108).
* `attach` to a vector that has a buffer loses the buffer and its elements in a release build (C109).
* `for_each` and `for_each_m` of parallel containers copy the callback for every submap, so a function object that keeps
  its state in itself starts again in every submap (C110).
* Moving an `intrusive_ptr` to a derived class into one to an abstract or non-copyable base class copies it: the source keeps
  its reference (C111). Copy assignment between such types does not compile.


## Properties: what is modelled, how it is proved

| id | property | model and proof | status | theorems | note |
|---|---|---|---|---|---|
| C01 | Hash map history equivalence | `raw_hash_set` with raw control-byte array, slots, size, growth_left; representation invariant kept by each operation, refinement to a list of elements up to order, induction over histories | proved | `C01_history`, `C01_behaves`, `spec_lookup_insert`, `spec_lookup_erase`, `spec_lookup_modify` | All histories over any number of containers, refinement to Verif/Spec/Assoc.lean. reserve/rehash with n>0 as in the statement. |
| C02 | Lookups terminate and never touch invalid memory | `raw_hash_set` with raw control-byte array, slots, size, growth_left; representation invariant kept by each operation, refinement to a list of elements up to order, induction over histories | proved | `C02_calls_return` | ok result = no out-of-bounds access, no raw slot access, loops end. |
| C03 | Insertion never overwrites | `raw_hash_set` with raw control-byte array, slots, size, growth_left; representation invariant kept by each operation, refinement to a list of elements up to order, induction over histories | proved | `C03_insert`, `C03_insert_or_assign` |  |
| C04 | size() counts the elements | `raw_hash_set` with raw control-byte array, slots, size, growth_left; representation invariant kept by each operation, refinement to a list of elements up to order, induction over histories | proved | `C04_size` |  |
| C05 | Iteration visits every element exactly once | `raw_hash_set` with raw control-byte array, slots, size, growth_left; representation invariant kept by each operation, refinement to a list of elements up to order, induction over histories | proved | `C05_iteration` |  |
| C06 | Erase while iterating / erase_if | `raw_hash_set` with raw control-byte array, slots, size, growth_left; representation invariant kept by each operation, refinement to a list of elements up to order, induction over histories | proved | `C06_erase_iterator`, `C06_erase_if`, `C06_erase_range` |  |
| C07 | rehash and reserve keep the contents and leave a usable table | `rehash`, `reserve`, `resize`; reachable witness in which an absent-key lookup never ends, whatever the fuel | partial | `C07_rehash_partial`, `C07_reserve_partial`, `C07_rehash_zero_hangs`, `C07_refuted` | The full statement is false for n = 0 (C07_refuted): rehash(0)/reserve(0) can fill the table completely and absent-key lookups then never terminate. Proved for every n > 0 and for n = 0 when the elements fit. |
| C08 | reserve(n) prevents reallocation | capacity arithmetic for all n, and traces of insertions | proved | `C08_reserve` |  |
| C09 | Tombstone clean-up preserves contents | `raw_hash_set` with raw control-byte array, slots, size, growth_left; representation invariant kept by each operation, refinement to a list of elements up to order, induction over histories | proved | `C09_cleanup`, `C09_drop_deletes` |  |
| C10 | clear empties and stays usable | `raw_hash_set` with raw control-byte array, slots, size, growth_left; representation invariant kept by each operation, refinement to a list of elements up to order, induction over histories | proved | `C10_clear` |  |
| C100 | Sorting several structures of arrays in one thread | Model: sort_by_field with the real bit_vector (Bits model) and index vector, kept between calls (Soa/Scratch.lean). Specification: numbered tables, each by itself (Spec/SoaTables.lean). Proof: the bit_vector simulates the list of marks of the C39 model; resize makes a usable vector of any leftover; induction over histories. | partial | `C100_sort_partial`, `C100_tables_partial`, `C100_empty_refuted` | Everything except sorting a table without rows, which is undefined (C100_empty_refuted). Comparisons that call sort_by_field on a table of the same type themselves are not modelled. |
| C101 | Iterators of parallel hash containers: which calls invalidate them | Model: iterators as submap and position, and (for swap) as the pointers they consist of (Parallel/Iterators.lean). Proof: operations keep slots and capacity while there is room (Parallel/Stay.lean), induction over histories; walking after a swap is walking in a container put together of both. | partial | `C101_room_partial`, `C101_no_adds_partial`, `C101_one_submap`, `C101_swap_iterator`, `C101_swap_walk`, `C101_swap_plain`, `C101_swap_refuted` | Proved: everything but swap. The documentation is wrong about swap (C101_swap_refuted): an iterator of a parallel container still refers to its element after a swap, but compares unequal to every iterator of the container the element is now in, erasing through it is undefined, and going on from it leads into the elements of the other container (C101_swap_iterator and C101_swap_walk describe this for all containers). Iterators of the ordinary containers do survive (C101_swap_plain). An insertion that finds the submap without room but reuses the slot of an erased element is not covered by C101_room_partial. |
| C102 | reserve(n) of parallel hash containers | Model: that of C21 and C101. Proof: arithmetic of the share of each submap (Parallel/Room.lean: reserve_share), then induction over histories with the room left in each submap. | partial | `C102_no_resize_partial`, `C102_used_partial`, `C102_iterators_partial`, `C102_used_iterators_partial`, `C102_reserve_refuted`, `C102_balanced_refuted`, `C102_erased_refuted` | False as it stands (C102_reserve_refuted): the reservation is divided among the submaps, and all elements may fall into one. True if no submap gets more than n divided by the number of submaps, except with the portable group implementation when this share is 7 (C102_balanced_refuted). Proved for reservations on a newly constructed container, and on one that has elements already but from which nothing was erased (C102_used_partial, C102_used_iterators_partial); if something was, the claim is false (C102_erased_refuted). Erasures after the reservation are allowed. |
| C103 | An insertion into an LRU cache that throws | Model: the insertion with an exception at each of its four copies (Lru/Throw.lean), nothing of what was done before given back, as in the code. Proof: refinement to a reference cache whose entries may be remainders that are not found (Spec/LruThrow.lean, Lru/ThrowSim.lean), then invariants of the reference cache (Lru/ThrowRef.lean). | partial | `C103_history_partial`, `C103_latest_partial`, `C103_mild_partial`, `C103_bound_partial`, `C103_bound_refuted`, `C103_lost_refuted`, `C103_answer_refuted` | False as it stands. If copying the key into the index or the key of the dropped entry throws, an entry that cannot be found stays in the list: the cache exceeds its size for good (C103_bound_refuted) and dropping the remainder later takes a newer entry with the same key out of the index (C103_lost_refuted). If the copy handed to the caller of the lambda throws, a later get for the dropped key is undefined behaviour (C103_answer_refuted). Proved for histories with at most seven throwing insertions, none of the last kind: all answers (C103_history_partial), get returns only the latest value that was inserted (C103_latest_partial), at most one key too many for each exception (C103_bound_partial); if only the copy of the value or the allocation of the entry throws, all answers but size() are as if the insertion had not been made (C103_mild_partial). With more exceptions a search may never end, as for C82. The same lines are in memoize.hpp:232-242. |
| C104 | Parallel traversal with an execution policy | Model: what a worker does with one submap is one critical section (Conc/Share.lean: visitPart, changePart), made by any thread at any time. Proof: the stepwise explanation of C69, and counting of steps over threads (Conc/Spread.lean). | proved | `C104_during`, `C104_visit_alone`, `C104_change_alone`, `C104_progress` | The policies seq and par. With unseq and par_unseq the standard forbids callbacks that take locks, so that the library must not be called with them; this is not modelled. std::for_each with a policy is represented by its contract: every submap is handed to some worker exactly once, between the beginning and the end of the call. Callbacks that throw with a policy terminate the program and are not modelled. |
| C105 | Copying and assigning reference counted objects | Model: the copy operations the compiler generates, the base class first and then the members in order (Intrusive/Copies.lean). Proof: simulation by the graph of owners; deaths in the middle of an assignment commute with the assignments that follow, and whatever survives the whole assignment is alive in the middle of it. | proved | `C105_history`, `C105_step_unique`, `C105_copy`, `C105_pop_refuted` | C105_pop_refuted shows that the last sentence of the property is needed: with two pointers, *a = *a->first is undefined if nothing else owns the source (with one pointer it is not, and C105_history covers that case). Not modelled: copy operations written by the user, copies of objects that are not owned by pointers. |
| C106 | erase_if with a predicate that throws or has a memory | Model: the loops of erase_if with a predicate that is an arbitrary state machine whose answers are keep, erase or throw (Swiss/Asked, Parallel/Asked, Btree/Asked). Specification: a recursion over the list of elements (Spec/Asked). Proof: induction over the loop, with the invariant that the elements behind the iterator are untouched. | proved | `C106_hash`, `C106_parallel`, `C106_btree`, `C106_asked_once`, `C106_pure` | C106_asked_once and C106_pure explain the specification: what a predicate is asked about, and that for predicates without memory the call is a filter. erase_if of gtl::vector calls std::remove_if, for which the standard library leaves open what is left after an exception; it is not covered. |
| C107 | Lookups in B-tree containers with something that is not a key | Model: the instance of the templates for a type that is not the key type (Btree/Query, Cfg.ask) on the same tree. Specification: what q answers when compared with each key (Spec/Query). Proof: the searches need no strict weak order over keys and q together, only that the elements are split; so the invariant of the descent is proved again from that alone. The full property is refuted for sets and maps by concrete containers. | partial | `C107_upper`, `C107_lower_partial`, `C107_lower_any`, `C107_find`, `C107_contains`, `C107_count_erase_multi`, `C107_count_erase_one`, `C107_count_erase_partial`, `C107_count_erase_refuted`, `C107_lower_refuted` | Proved in full for multisets and multimaps, and in all containers for upper_bound, find and contains and whenever at most one element matches. Refuted for sets and maps when several elements match: count(q) is 1 and erase(q) removes one match (C107_count_erase_refuted); with a three way comparison and nodes searched by halves lower_bound(q), and so equal_range(q), start at some match that need not be the first (C107_lower_refuted). C107_count_erase_one and C107_lower_any say what holds in these cases. |
| C108 | Lookups in hash containers with something that is not a key | Model: the instances of the templates for a type that is not the key type (Swiss/Query, Parallel/Query), equal_range, and the loop a user writes over the range. Specification: the hash of q and the keys it is equal to (Spec/HashQuery). Proof: the search invariant needs only that what matches has the hash that is looked for; matches of a parallel container are all in the submap of the hash of q. The full property is refuted by a concrete container for several matches. | partial | `C108_lookup`, `C108_erase`, `C108_all_partial`, `C108_same`, `C108_equal_range`, `C108_all_refuted`, `C108_parallel_lookup`, `C108_parallel_erase`, `C108_parallel_erase_if`, `C108_parallel_all_partial`, `C108_parallel_equal_range`, `C108_parallel_all_refuted` | Proved in full for find, contains, extract, for things that stand for a key and for keys, and for count, equal_range and erase whenever at most one element matches. Refuted when several elements match (C108_all_refuted, C108_parallel_all_refuted): count(q) is 1, equal_range(q) holds one match and erase(q) removes one. C108_lookup and C108_erase say what holds in this case. |
| C109 | Handing the buffer of a vector to the user and back | Model: held buffers are names of the same kind as vectors, with a flag (Vec/Handover). Specification: sequences that change hands (Spec/Handover). Proof: each call is a sequence of moves, move assignments and destructor calls of C45, so reachable states are those of C45; shrink_to_fit is followed once more for the capacity (Vec/Shrink). Two theorems show what happens when the rules are broken. | proved | `C109_programs`, `C109_effect`, `C109_throws`, `C109_in_place`, `C109_emptied`, `C109_round_trip`, `C109_no_leak`, `C109_compact`, `C109_frame`, `C109_attach_refuted`, `C109_capacity_refuted` | The rules are those of the comments in the code. Broken rules: attach to a vector that has a buffer leaks it in a release build (C109_attach_refuted), and a wrong capacity leads to writes outside the buffer (C109_capacity_refuted). compactResize for element types that can be copied or moved without exceptions, and the operations of the vector with the restrictions of C45. steal_data() cannot be instantiated. |
| C11 | Copy, move, swap | `raw_hash_set` with raw control-byte array, slots, size, growth_left; representation invariant kept by each operation, refinement to a list of elements up to order, induction over histories | proved | `C11_copy`, `C11_move`, `C11_swap`, `C01_history` | Independence of later changes is part of C01_history (histories with copies). |
| C110 | Traversals whose callbacks throw while other threads use the containers | Model: the machine of C72 with traversals that stop in the middle of a submap and release the lock in the guard (Conc/Walk). Specification: plans that end early (Spec/Walk). Proof: every section of a traversal is simulated by one atomic step (Conc/WalkSim); an induction over the explanation collects what a call has seen (Conc/WalkTrace). | proved | `C110_stepwise`, `C110_contents`, `C110_during`, `C110_alone`, `C110_released`, `C110_no_deadlock`, `C110_copied_refuted`, `C110_code` | C110_no_deadlock if nobody swaps containers (C72). C110_copied_refuted: a function object that counts what it is shown and throws at the second element is shown two elements and does not throw, since std::for_each copies it for every submap. The overloads with an execution policy are not modelled. An exception from a mutex is not modelled. |
| C111 | Intrusive pointers to derived classes become pointers to base classes | Model: conversions of rvalues with a flag for std::is_convertible_v of the classes (Intrusive/Convert). Specification: owners of C41, with moves that empty the source (Spec/Convert). Proof: each conversion is an operation of C41. The claim about moves is refuted for classes that cannot be converted by value. | partial | `C111_history_partial`, `C111_any`, `C111_move`, `C111_history_refuted` | False where the base class is abstract or cannot be copied: the constructor from intrusive_ptr<U>&& is enabled by a condition on the classes instead of pointers to them, so that the copy constructor is taken and the source keeps its reference (C111_history_refuted; C111_move says exactly what happens). Proved: everything for other classes (C111_history_partial); for all classes, no undefined behaviour and correct counts (C111_any). Copy assignment from another pointer type does not compile. Destructors as in C41; that deleting through a base class runs the right destructor is up to the class. |
| C112 | Running out of memory while other threads use a parallel container | Model: the machine of C22 and C91 with insertions that have a budget of allocations (Conc/Alloc, Swiss/AllocFail) and scopes that release the lock on both kinds of exceptions. Specification: a relation with one extra outcome (Spec/ConcAlloc). Proof: a budgeted call follows the plain one or leaves its very table (Swiss/AllocFail, Follows); then the reduction theorem of C22. | partial | `C112_linearizable`, `C112_contents`, `C112_enough`, `C112_released`, `C112_no_deadlock`, `C112_shared_partial`, `C112_code` | Proved in full for exclusive mutexes, and for mutexes with shared locks if nobody erases; with shared locks and erasing threads the answer of an erase whose key has gone is the one of C23 (C112_shared_partial), everything else holds. The memory of the elements themselves is not counted. emplace with arguments that do not contain the key leaks its temporary element (C77). reserve, insertion of ranges and merge are not among the calls; for containers with one table they are in C77. |
| C113 | Parallel containers that run out of memory | Model: the parallel containers of C21 on tables with a budget of allocations (Swiss/AllocFail), with loops over submaps that an exception leaves (Parallel/AllocFail). Specification: what a failing call may leave (Spec/ParallelAlloc). Proof: every submap simulates its part of the list; a loop that is left at submap k has done the submaps before it, left k as its table operation does, and not touched the rest; then induction over the history. | partial | `C113_history_partial`, `C113_same`, `C113_capacity`, `C113_never`, `C113_enough`, `C113_copy_refuted` | A user may expect of copy assignment what the ordinary containers give: that one which throws changes nothing. That is refuted (C113_copy_refuted: the destination is left with a mixture); the history theorem states the mixture exactly. The memory of the elements themselves is not counted; the temporary of emplace without a key among its arguments leaks as in C77. rehash with fewer buckets than submaps is excluded, as in C21. Several threads are in C112. |
| C114 | Several values and containers in one archive, on a device that may be full | Model: dump call by call on any archive, the file with the room that is left, sequences of saves and loads (Parallel/Archive). Proof: each item writes a list of blocks that does not depend on the archive and whose concatenation is the archive of C16 or C73; induction over the items with an arbitrary rest of the stream. | partial | `C114_restores_partial`, `C114_full_disk`, `C114_any_archive`, `C114_appending`, `C114_not_opened`, `C114_nothing_there`, `C114_silent_loss`, `C114_reports_refuted` | The last sentence is refuted (C114_reports_refuted, C114_silent_loss, C114_not_opened): saveBinary and phmap_dump answer true even if the file was not opened or the device is full, and so does loading the result. Everything else is proved. The buffer of the stream is not modelled. All containers of one archive share one element type and hash in the model. |
| C115 | Callbacks that call back into the parallel container | Model: programs with nested calls; the code of each call around its callback, with the position or the prepared slot it holds across the callback; locking a held mutex is undefined (Parallel/Reenter). Proof: induction over programs; submaps that must not be touched stay as they are (frame) and their contents do not matter (commutation), so the end of erase_if and of the creation of an element are those of a call without callback. | proved | `C115_callbacks`, `C115_no_mutex`, `C115_locked_twice`, `C115_same_key_refuted`, `C115_other_key_refuted`, `C115_erase_if_refuted`, `C115_erase_twice_refuted`, `C115_create_refuted` | One thread. The condition is exact for modify_if, if_contains and elements that are there (C115_locked_twice); for erase_if and for callbacks that create elements, concrete programs that break it are shown to be undefined. The callback uses the reference to its element before it makes calls. Reallocation to the same capacity is not seen as reallocation. |
| C116 | Callbacks that call back while other threads use the container | Model: programs with nested calls as code of the machine with several locks: lock, body, code of the callback, unlock (Conc/Nested). Proof: an inductive description of code that takes locks one after the other and releases them in reverse order; invariant over executions that relates each object to the abstract container, with the instant of a call at the end of its body (Conc/NestRed); climbing argument on lock numbers for deadlock freedom; concrete executions for the refutations. | proved | `C116_nested_calls`, `C116_contents`, `C116_undisturbed`, `C116_upwards`, `C116_alone`, `C116_opposite_refuted`, `C116_same_submap_refuted`, `C116_code` | Calls on one key. With a shared mutex, erase may say that it erased though the key had gone (C23). The callback uses its element before it makes calls; callbacks of erase_if and those that create elements make no calls. A shared lock is granted whenever nobody holds the lock exclusively, also if somebody waits for it. Deadlock freedom says that some thread can always go on, not that the scheduler lets it. |
| C117 | Number of buckets and load factor of parallel hash containers | Model: bucket_count and load_factor (Parallel/Capacity) on the model of parallel containers. Proof: what each call does to the bucket count of each submap (pstep_effect), with the facts of C99 about single tables, then induction over histories; a history with one element at a time in eight submaps for the refutation. | proved | `C117_load`, `C117_memory`, `C117_grow`, `C117_keep`, `C117_create`, `C117_total_refuted`, `C117_reserve_zero` | One thread. load_factor() is modelled before the rounding to a floating point number. C117_total_refuted: a container that never holds more than one element can have as many buckets as submaps. C117_reserve_zero: reserve(0) allocates a bucket in every submap. |
| C118 | What the debug interface of the hash containers reports | Model: the three functions on the table model (Swiss/Debug), with the layout of C74 in 64-bit words. Proof: the loop of find with a trace, compared step by step with the loop that counts probes; the loop over the slots by induction with the representation invariant; monotonicity of the layout in the capacity. | proved | `C118_probes`, `C118_parallel`, `C118_new`, `C118_bytes`, `C118_block`, `C118_lower` | One thread. The counter of probes is a natural number. The lower bound needs that the sizes fit in the address space; otherwise both numbers wrap around. |
| C119 | Scoped helpers when operations of the type throw | Model: constructor, destructor, change and replace with an oracle for each operation of the type, what failed operations leave behind, and the noexcept specifications, which turn exceptions into the end of the program (Utils/ScopedThrow). Proof: outright, by the cases of the code; witnesses for what is false. | partial | `C119_restores`, `C119_construct`, `C119_set_value_refuted`, `C119_set_value_partial`, `C119_terminate_refuted`, `C119_terminate_partial`, `C119_restore_throws`, `C119_replace`, `C119_replace_refuted`, `C119_change`, `C119_change_terminates` | Refuted for scoped_set_value and replace: they move the old value away before they assign the new one, and when this assignment throws nobody puts it back, so the variable is left moved-from (C119_set_value_refuted, C119_replace_refuted). Also refuted: that the exception reaches the caller; the noexcept specifications look at copying and moving only, so that an assignment from another type, a default constructor or a comparison that throws ends the program (C119_terminate_refuted, C119_change_terminates). The partial theorems say when the claim holds; change never loses the value. |
| C12 | operator== is set equality | `raw_hash_set` with raw control-byte array, slots, size, growth_left; representation invariant kept by each operation, refinement to a list of elements up to order, induction over histories | proved | `C12_equality`, `C12_reflexive` |  |
| C120 | Timestamps in several threads | Model: the calls as code for the concurrent machine of C22, one access to the clock or to a stamp after another, without locks (Conc/Timestamps). Proof: without lock operations nothing orders accesses of different threads; the state of each call of touch tells whether it has changed the clock; with a mutex the reduction theorem for critical sections and C51. | partial | `C120_clock`, `C120_touch_refuted`, `C120_lost`, `C120_looking`, `C120_one_thread`, `C120_guarded` | Refuted without a mutex: the clock is shared by all timestamps and not atomic. In every execution in which two threads have made a call of touch, on whatever timestamps, there is a data race (C120_touch_refuted), and even with atomic accesses two touches can give equal timestamps (C120_lost). Proved: with a mutex around every call, for calls that only look, and for a single thread (C120_one_thread: the accesses one by one give the answers of C51). |
| C121 | Lists of elements computed from each other | Model: functions as trees of questions; indexing as the recursion of the code with a bound on its depth, the reference it returns, and the number of calls (Memo/Lazy). Spec: the relation between an index and its element (Spec/Lazy). Proof: induction over the computation, and over the depth. | partial | `C121_first`, `C121_right`, `C121_read_partial`, `C121_ends_partial`, `C121_value_refuted`, `C121_calls`, `C121_once_refuted` | A value that is read is the right one. Proved in full for functions that return references to objects that stay. Refuted for functions that return values: operator[] returns a reference to a temporary, so reading any element but the first is undefined (C121_value_refuted). Elements are not remembered: the Fibonacci number at index i takes fib(i+2)-1 calls (C121_calls, C121_once_refuted); a comment in the code says so. |
| C122 | Rows of a soa as references | Model: the columns of C40, each with the room in its block and the number of the block; rows as an index and the blocks (Soa/Rows). Spec: the rows of C40 and the condition under which a row may be used (Spec/SoaRows). Proof: induction over the history with the step lemma of C40; growth is an arbitrary function that gives enough room. | proved | `C122_stays`, `C122_reserve`, `C122_reserved`, `C122_grow`, `C122_write`, `C122_patch`, `C122_assign`, `C122_assign_all` | Of std::vector it is assumed that it stays in its block as long as there is room, and makes enough room when it moves. Sorting a table without rows is undefined (C39_empty_refuted), but such a table has no row to use. References to destroyed elements whose place is used again are taken to refer to the new element. |
| C123 | What stopwatches measure | Model: programs, executed with a clock that is an arbitrary sequence of readings (Utils/Stopwatch). Spec: the events of an execution with their times (Spec/Stopwatch). Proof: invariants kept by every call, induction over programs. | partial | `C123_reads`, `C123_steady_partial`, `C123_scope_partial`, `C123_not_started`, `C123_basic`, `C123_nested_refuted`, `C123_set_back_refuted` | That times are not negative is proved for clocks that do not go back; high_resolution_clock need not be one, and then it is refuted (C123_set_back_refuted). The time of a block is proved for blocks that do not start the same stopwatch, and refuted for nested ones (C123_nested_refuted). Times are in ticks; their conversion to floating point numbers and overflow of the ticks are not modelled. |
| C124 | Timestamps tell what is out of date | Model: that of C51 for the timestamps, get_timestamp of composed things as a fold with | (Utils/Stale). Spec: the list of changes in their order (Spec/Stale). Proof: invariant that the stamp of an object is the position of its last change, induction over programs; the stamp of a composed thing is the largest of its parts. | proved | `C124_newer`, `C124_older`, `C124_stale`, `C124_fresh` | One thread; several threads race for the clock (C120). |
| C125 | Map elements whose keys have to be copied | Model: places with or without an object, the functions of map_slot_policy step by step in both variants, and the loops of emplace_value and remove_values_ignore_children (Btree/MapSlots) and of the functions that move elements between nodes (Btree/MapNodes), and sequences of them on any number of nodes (Btree/MapPool). Spec: the places of a node hold exactly a list (Spec/MapSlots, Spec/MapNodes); what calls do to the lists (Spec/MapPool). Proof: loop invariants by induction; for exceptions, that a place is empty which still counts. | partial | `C125_insert_partial`, `C125_erase_partial`, `C125_transfer_partial`, `C125_swap_partial`, `C125_rebalance_left_partial`, `C125_rebalance_right_partial`, `C125_merge_partial`, `C125_split_partial`, `C125_swap_nodes_partial`, `C125_step_partial`, `C125_history_partial`, `C125_clear_partial`, `C125_order`, `C125_split_order`, `C125_erase_throws`, `C125_insert_throws`, `C125_throws_refuted`, `C125_rebalance_left_throws`, `C125_rebalance_right_throws`, `C125_merge_throws`, `C125_split_throws`, `C125_leak_refuted`, `C125_self_swap_refuted` | Proved if no copy throws, for single nodes, for the functions that move elements between a node, its sibling and their parent, and for all sequences of these calls (C125_history_partial: the counts are right and every place that does not count is empty; C125_clear_partial: clearing the nodes afterwards leaves no object). C125_order and C125_split_order are about the specification alone: the calls that move elements between siblings keep their order. The last sentence is refuted: move destroys the destination before it copies the key into it, so after an exception in a removal (for every node, C125_erase_throws) or, unless it was the first copy, in an insertion, a place that counts as an element holds no object, and destroying the container is undefined. When elements are moved between nodes, unless it was the first copy, an object stays behind the elements of a node and nobody destroys it (for all nodes, C125_rebalance_left_throws, C125_rebalance_right_throws, C125_merge_throws, C125_split_throws). Swapping an element with itself is undefined if keys are copied. Which of these functions the containers call is the subject of C01 and C43, with other models. Moves of keys and values do not throw. |
| C13 | merge moves exactly the missing elements | `raw_hash_set` with raw control-byte array, slots, size, growth_left; representation invariant kept by each operation, refinement to a list of elements up to order, induction over histories | proved | `C13_merge` |  |
| C14 | extract / re-insert node | `raw_hash_set` with raw control-byte array, slots, size, growth_left; representation invariant kept by each operation, refinement to a list of elements up to order, induction over histories | proved | `C14_extract`, `C14_insert_node` |  |
| C15 | A throwing element constructor leaves the container unchanged | insertion interrupted between `prepare_insert` and `set_ctrl`; copy constructor interrupted at any element | partial | `C15_throw_partial`, `C15_size_off_by_one`, `C15_refuted`, `C15_copy_throw_refuted` | The full statement is false: size() is one too large after the exception. Contents and lookups are proved unchanged. |
| C16 | dump then load restores the container | archives as byte lists; round trip for every reachable table; witnesses for truncation | proved | `C16_round_trip`, `C16_legacy_partial`, `C16_legacy_small_refuted` | Versioned archives (what phmap_dump writes): proved in full. Archives in the older layout without version word are also accepted by phmap_load; those restore only tables with at least one group of slots (C16_legacy_partial), smaller ones are undefined behaviour (C16_legacy_small_refuted). |
| C17 | load detects a truncated archive | archives as byte lists; round trip for every reachable table; witnesses for truncation | partial | `C17_never_detected`, `C17_header_only`, `C17_missing_elements`, `C17_refuted`, `C17_parallel_cut`, `C17_parallel_refuted` | The property is false of the code. Proved instead: no truncation after the 24-byte header is ever reported, and two truncation points at which the resulting container is inconsistent (size without elements; elements never read). For parallel containers: an archive cut between two submaps is accepted and the elements of the remaining submaps are silently missing. |
| C18 | Results do not depend on the SIMD group implementation | SSE2 and portable group functions on bytes and 64-bit words; bytewise borrow analysis by induction | proved | `C18_group`, `C18_same_results` |  |
| C19 | Probing visits every slot | triangular probing is a bijection modulo a power of two | proved | `C19_probe_covers`, `C19_lookup_bound` |  |
| C20 | Stored hashes and heterogeneous lookups agree | `raw_hash_set` with raw control-byte array, slots, size, growth_left; representation invariant kept by each operation, refinement to a list of elements up to order, induction over histories | proved | `C20_equivalent_keys`, `C20_one_per_class` |  |
| C21 | Parallel map equals one map | array of submaps; refinement by the single-table theorems | proved | `C21_history`, `C21_behaves`, `C21_same_as_ordinary`, `C21_submaps` | All N, hashes, mutex kinds and single-thread histories over any number of containers, including the callback functions. rehash(n) is restricted to n >= 2^N (see C25). |
| C22 | Parallel map operations are linearizable | machine of threads, one mutex per submap; lock-ownership invariant and linearization points | proved | `C22_linearizable`, `C22_contents`, `C22_no_deadlock`, `C22_code` | Every interleaving of any number of threads calling the keyed operations (insert, emplace, try_emplace, insert_or_assign, lazy_emplace_l, modify_if, if_contains, contains, erase by key, erase_if) on one container. Data-race freedom gives sequential consistency (trusted); mutexes are standard. |
| C23 | Concurrent erase reports what it erased | machine of threads, one mutex per submap; lock-ownership invariant and linearization points | partial | `C23_exclusive`, `C23_shared_partial`, `C23_shared_linearizable_partial`, `C23_shared_refuted` | Holds for mutexes without shared mode (C23_exclusive). With a shared_mutex erase(key) looks up under the shared lock, releases it and locks again: the count reported by two racing erases can be wrong (C23_shared_refuted); what remains true is C23_shared_partial. |
| C24 | Lock guards release exactly what they acquired | state machines of the guards, invariant over all programs | partial | `C24_balanced_partial`, `C24_released_partial`, `C24_switch`, `C24_try_to_lock_refuted`, `C24_try_to_lock_shared_refuted` | All guard operations except the try_to_lock constructor; with it the property is false: a successful attempt is not remembered and the mutex is never released. |
| C25 | Parallel merge, swap, equality, clear, reserve | array of submaps; refinement by the single-table theorems | partial | `C25_merge`, `C25_swap`, `C25_equal`, `C25_clear`, `C25_reserve`, `C25_rehash_partial`, `C25_rehash_refuted`, `C25_self_refuted` | merge, swap, ==, clear, reserve proved. False as stated: rehash(n) with n smaller than the number of submaps calls rehash(0) on each submap, after which a lookup can hang (C25_rehash_refuted); comparing or swapping a container with itself locks each mutex twice (C25_self_refuted). |
| C26 | LRU cache returns only the latest inserted value | map of node ids and recency list per shard; simulation to a reference LRU | proved | `C26_reference`, `C26_get_latest`, `C26_get_inserted` | All histories, sizes, hash functions and shard counts. C26_reference: every answer equals that of a reference cache. |
| C27 | LRU cache evicts the least recently used entry | map of node ids and recency list per shard; simulation to a reference LRU | proved | `C27_most_recent`, `C27_get_most_recent`, `C27_size` | All histories in which the size is not changed, every size and shard count. |
| C28 | Copying or moving an LRU cache gives an independent, valid cache | map of node ids and recency list per shard; simulation to a reference LRU | partial | `C28_copy_refuted`, `C28_move_refuted`, `C28_refuted_instance`, `C28_exists_partial` | False: the recency lists are neither copied nor moved, so the new cache refers to nodes of the old one's lists. For every history and every key held, get and insert on the copy are undefined. exists and size are right. |
| C29 | memoize is transparent | memoize over the map; invariant that every cached value is f(key) | proved | `C29_only_values`, `C29_transparent`, `C29_threads`, `C29_lru` | recursive and non-recursive functions; for every history of calls, contains, clear, reserve, size (one thread); for every schedule of calls, contains, clear by any number of threads with a real mutex; with a size limit for functions that are not recursive (see C56). Functions whose body depends on more than the equality class of the argument are excluded. |
| C30 | memoize evaluates once per argument | memoize over the map; invariant that every cached value is f(key) | proved | `C30_once`, `C30_called`, `C30_contains`, `C30_size`, `C30_threads_linearizable`, `C30_threads_once` | one thread: histories with clear and reserve, recursive functions; many threads: recursive == false |
| C31 | memoize_lru is bounded | memoize over the map; invariant that every cached value is f(key) | proved | `C31_reference`, `C31_runs`, `C31_contains`, `C31_size` | the code keeps n/shards - 1 values per shard, one less than the configured share; size fixed during the history for C31_runs, C31_contains and C31_size, any history for C31_reference; function not recursive |
| C32 | bit_vector element access | 64-bit words, `visit` loops over head, middle and tail; pointwise bit semantics | partial | `C32_create`, `C32_set`, `C32_flip`, `C32_flip_all`, `C32_set_all_partial`, `C32_set_all_empty_refuted`, `C32_view_set`, `C32_view_flip` | For every reachable vector. set() and reset() on a vector with no bits form &_s[0] of an empty std::vector, which is undefined (C32_set_all_empty_refuted); everything else holds in full. |
| C33 | bit_vector boolean operators act bitwise | 64-bit words, `visit` loops over head, middle and tail; pointwise bit semantics | proved | `C33_assign`, `C33_assign_self`, `C33_op`, `C33_not`, `C33_unused_zero` | All sizes and contents; the operand may be the same vector. C33_unused_zero: after any history of calls the storage has no stray bits. |
| C34 | bit_vector shifts | 64-bit words, `visit` loops over head, middle and tail; pointwise bit semantics | proved | `C34_right`, `C34_left`, `C34_view_right`, `C34_view_left`, `C34_meaning` | All sizes, views and shift counts. |
| C35 | bit_vector queries | 64-bit words, `visit` loops over head, middle and tail; pointwise bit semantics | partial | `C35_any`, `C35_every`, `C35_count`, `C35_equal`, `C35_hash`, `C35_view_any`, `C35_view_every`, `C35_view_count`, `C35_view_equal`, `C35_view_disjoint`, `C35_view_contains_partial`, `C35_contains_shorter_refuted` | All queries hold in full except contains with a shorter operand, which the assertion allows and which reads past its end (C35_contains_shorter_refuted). |
| C36 | bit_vector find_first / find_next | 64-bit words, `visit` loops over head, middle and tail; pointwise bit semantics | partial | `C36_find_first`, `C36_view_find_first_partial`, `C36_find_next_partial`, `C36_find_next_refuted` | find_first on a vector holds in full. For views the exact condition under which the result is right is proved; find_next(4) on 70 bits with bits 3 and 65 set returns 69 (C36_find_next_refuted). |
| C37 | bit_vector resize | 64-bit words, `visit` loops over head, middle and tail; pointwise bit semantics | partial | `C37_resize_partial`, `C37_resize_actual`, `C37_refuted` | resize(n, true) from a size that is not a multiple of 64 leaves the new bits of the old last slot false (C37_refuted). C37_resize_actual says what happens in every case. |
| C38 | bit_vector view assignment copies | 64-bit words, `visit` loops over head, middle and tail; pointwise bit semantics | partial | `C38_other_vector`, `C38_same_vector_partial`, `C38_overlap_refuted`, `C38_direction_refuted` | Holds between different vectors, and in one vector when the destination starts at or below the source. Otherwise false: overlapping views are corrupted, and a destination above the source is copied to the source. |
| C39 | soa sort keeps rows together | columns and the in-place permutation loop; loop invariant over cycles | partial | `C39_sort_partial`, `C39_stable`, `C39_unique`, `C39_empty_refuted` | Any number of columns (at least one), any value types, any number of rows but zero: sorting a table without rows clears a bit_vector without bits, which is undefined (C39_empty_refuted, see C32). std::stable_sort is any function that meets the contract of the standard (Sorter.Ok; isort_ok shows one exists); the cycle-following reorder is modelled step by step with moved-from cells; C100 has the same with the bit_vector itself. |
| C40 | soa columns keep equal length | columns and the in-place permutation loop; loop invariant over cycles | partial | `C40_rows_partial` | Missing: histories that sort a table without rows, which is undefined (C39_empty_refuted). Writes through operator[], view or get_column are among the operations; C122 says how long such references can be used. Writing through get_column so as to change the length of one column alone is outside the API modelled (the accessor returns the vector by reference). |
| C41 | intrusive_ptr counts owners | heap of counters and pointer variables; counting invariant over histories and over schedules | proved | `C41_history`, `C41_step_unique` | objects may have intrusive pointers as members, so deletion cascades and cyclic structures are covered; fewer than 2^32-1 owners per object at any time (32-bit counter); conversions between pointer types are not modelled; the converting copy assignment (intrusive.hpp:102-107) compares pointers of different types and would not compile, so it is not modelled separately |
| C42 | intrusive_ptr is safe across threads | heap of counters and pointer variables; counting invariant over histories and over schedules | proved | `C42_safe`, `C42_quiescent`, `C42_progress`, `C42_unsafe_refuted` | any number of threads and objects, all schedules of atomic actions (sequential consistency: the operations on std::atomic used are seq_cst); pointers may be handed between threads; fewer than 2^32 minus the number of threads pointers per object |
| C43 | B-tree map/set history equivalence | nodes, positions, parent pointers; in-order sequence refinement to sorted lists | proved | `C43_history` | insert, emplace, try_emplace (as insert), hints, ranges, all erase, erase_if, extract, find, contains, count, bounds, equal_range, iteration both ways, writing mapped values, clear; sets, maps, multisets and multimaps, linear and binary search, plain and three-way comparison. Nodes and pointers between them are modelled; undefined behaviour and failing asserts are an outcome proved not to happen. Constructors, comparisons and allocation do not throw. |
| C44 | B-tree stays sorted and balanced | nodes, positions, parent pointers; in-order sequence refinement to sorted lists | proved | `C44_sorted_balanced`, `C44_depth` | The fill bound that the code keeps is between 1 and kNodeValues values per node (it does not keep half full nodes), which gives a depth logarithmic in the size. |
| C45 | gtl::vector sequence semantics | buffers with begin/end/capacity, exceptions and aliasing; refinement to lists | partial | `C45_effect_partial`, `C45_ends_partial`, `C45_program_partial`, `C45_size_le_capacity`, `C45_emplace_alias_false`, `C45_overflow_false`, `C45_memset_false`, `C45_shrink_false` | All operations of any number of vectors, all histories, aliased arguments included. Missing, and refuted with witnesses (the _false theorems): emplace of an own element within the capacity, n*sizeof(T) overflowing size_t, types whose zero bytes are not the value-initialised object, shrink_to_fit of types that can neither be copied nor moved without exceptions. |
| C46 | slice selects the expected elements | small functions, direct proofs; C50 and C51 by induction over programs and histories | partial | `C46_slice`, `C46_slice_exact_partial`, `C46_negative`, `C46_undefined`, `C46_stride_refuted`, `C46_python_refuted`, `C46_negative_refuted`, `C46_cat`, `C46_map` | What slice does is proved for all arguments: C46_slice (positive strides), C46_negative (negative strides: empty or std::length_error), C46_undefined (indices outside the vector, stride zero). The expected elements are returned when the stride divides last-first. Refuted: other strides lose the last element; negative indices are one off from Python (-1 is the end); negative strides give nothing. |
| C47 | binary_search finds a flip point | small functions, direct proofs; C50 and C51 by induction over programs and histories | partial | `C47_any_middle`, `C47_integers_partial`, `C47_signed_refuted`, `C47_doubles_partial`, `C47_negative_double_refuted` | full for unsigned integers and integers smaller than int; for signed integers when r-l does not overflow, otherwise refuted (undefined behaviour); for doubles when l >= 0, otherwise refuted (looking for 0.5 between -1.0 and 1.0 never ends). A double is modelled by its bits with the IEEE value |
| C48 | Hashing respects equality and loses nothing | small functions, direct proofs; C50 and C51 by induction over programs and histories | partial | `C48_equal_keys`, `C48_integers_lossless`, `C48_doubles_lossless`, `C48_tuple_of_hashes`, `C48_pair_of_hashes`, `C48_combine_of_hashes`, `C48_combine_lossless`, `C48_combine4_lossless`, `C48_one_element`, `C48_mixer_lossless`, `C48_umul128`, `C48_mixers_refuted` | all of it for keys, combiners and the portable mixer; refuted for the two other mixers (multiplication to 128 bits, and the one for 32 bits), which map different inputs to the same value. Types with their own hash_value or std::hash are represented by an arbitrary function of the value; size_t of 64 bits except for the 32-bit combiner and mixer |
| C49 | Bit utilities agree with their mathematical definition | small functions, direct proofs; C50 and C51 by induction over programs and histories | partial | `C49_leading64`, `C49_leading32`, `C49_trailing64`, `C49_trailing32`, `C49_swap`, `C49_swap_swap`, `C49_store`, `C49_load_store`, `C49_network`, `C49_apple_refuted` | all of it for the portable code; refuted for the variants of gbswap_16 and gbswap_64 selected on Apple systems with compilers other than GCC and Clang, which call each other's system function. Compiler built-ins and intrinsics are not modelled |
| C50 | Scoped helpers restore state | small functions, direct proofs; C50 and C51 by induction over programs and histories | proved | `C50_guard`, `C50_guard_off`, `C50_guard_dismissed`, `C50_guard_not_dismissed`, `C50_lifo`, `C50_set_value`, `C50_set_value_off`, `C50_set_value_dismissed`, `C50_set_unset`, `C50_alias_refuted`, `C50_replace`, `C50_change` | programs: sequences, branches on the state, nested and catching blocks, exceptions, dismissal by name; functions run by destructors do not throw. C50_alias_refuted records that scoped_set_value(v, v) and replace(v, v) lose the value |
| C51 | timestamps order touches | small functions, direct proofs; C50 and C51 by induction over programs and histories | proved | `C51_moments`, `C51_touch_newest`, `C51_merge`, `C51_number_refuted` | histories of fewer than 2^64 operations of one thread (the clock is a plain 64-bit integer) without the constructor from a number, for which C51_number_refuted shows that the order is lost |
| C52 | bit_vector boolean operators on views | 64-bit words, `visit` loops over head, middle and tail; pointwise bit semantics | partial | `C52_other_vector`, `C52_same_vector_partial`, `C52_overlap_refuted` | Holds unless both views are in one vector and the destination starts inside the source; then bits already written are read again (C52_overlap_refuted). |
| C53 | bit_vector assignment from integers | 64-bit words, `visit` loops over head, middle and tail; pointwise bit semantics | partial | `C53_new`, `C53_vector`, `C53_view_word_partial`, `C53_view_word_refuted`, `C53_view_words_partial` | Vectors in full. A view that crosses a slot boundary shifts by a negative count (C53_view_word_refuted). |
| C54 | bit_vector conversions | 64-bit words, `visit` loops over head, middle and tail; pointwise bit semantics | proved | `C54_to_string`, `C54_to_ullong`, `C54_hex` | All vectors and views. |
| C55 | bit_vector histories | 64-bit words, `visit` loops over head, middle and tail; pointwise bit semantics | partial | `C55_history_partial` | All histories except the calls that the refuted theorems of C32, C37, C38, C52 and C53 are about. |
| C56 | memoizing a recursive function with a size limit | memoize over the map; invariant that every cached value is f(key) | partial | `C56_refuted`, `C56_flat_partial` | refuted: the function runs inside lazy_emplace_l after a slot was chosen, and the recursive call fills the same slot. Proved for functions that do not call the memoized function. With a real mutex the recursive call moreover locks a mutex the thread may already hold. |
| C57 | gtl::vector exception safety | buffers with begin/end/capacity, exceptions and aliasing; refinement to lists | proved | `C57_exception_safety`, `C57_at` | Under the same rules for callers (Fair) as C45_effect_partial. |
| C58 | gtl::vector memory discipline | buffers with begin/end/capacity, exceptions and aliasing; refinement to lists | proved | `C58_memory_owned`, `C58_no_leak`, `C45_effect_partial` | Undefined behaviour (construction over an object, destruction of nothing, access outside a buffer, freeing a block with objects in it) is an outcome of the model that C45_effect_partial excludes; under the same rules for callers (Fair). |
| C59 | gtl::vector capacity and reference stability | buffers with begin/end/capacity, exceptions and aliasing; refinement to lists | proved | `C59_no_reallocation`, `C59_others`, `C59_reserve`, `C59_growth`, `C59_shrink` |  |
| C60 | B-tree containers are values | nodes, positions, parent pointers; in-order sequence refinement to sorted lists | proved | `C60_containers`, `C60_merge`, `C60_merge_perm` | Merging a container into itself is left out (it empties multisets). Allocators are equal. |
| C61 | B-tree containers neither leak nor leave dangling nodes | nodes, positions, parent pointers; in-order sequence refinement to sorted lists | proved | `C61_nodes` | Freed nodes are dead addresses in the model; following one is undefined behaviour, which C43 and C60 prove not to happen. |
| C62 | Inserting an element of the container itself into a B-tree | nodes, positions, parent pointers; in-order sequence refinement to sorted lists | partial | `C62_own_element_partial`, `C62_own_element_refuted`, `C62_own_element_hint_refuted` | Proved for containers without duplicates. False for multisets and multimaps: s.insert(*s.begin()) reads the element after the leaf that held it was freed. |
| C63 | References and iterators into hash containers | positions of elements in the table model; each call either changes nothing, one slot, or the whole allocation; for nodes the element carries its address | proved | `C63_node_address`, `C63_flat_position`, `C63_flat_reserved` | clear, resizing calls and range insertion (which reserves) are left out for flat containers; copying a node container allocates new nodes and is left out |
| C64 | Arguments that refer to elements of a flat hash map | insertion that reads its argument after prepare_insert; dangling references are undefined behaviour in the model | partial | `C64_present_partial`, `C64_reserved_partial`, `C64_grow_dangles`, `C64_refuted` | False: whenever the insertion enlarges the table, the argument is read after the old slots were freed (C64_grow_dangles); m.try_emplace(2, m.at(1)) on a map with one element does it. Proved when the key is present, and within reserved room. |
| C65 | reserve(n) and removals | histories after reserve; concrete run evaluated by the kernel for the three group implementations | partial | `C65_refuted`, `C63_flat_reserved`, `C08_reserve` | False: reserve(28), 28 insertions, one removal and one insertion double the capacity (C65_refuted). Proved: nothing moves when nothing was erased (C08_reserve), or while the number of insertions made stays within the reserved room (C63_flat_reserved). |
| C66 | A throwing element constructor during B-tree insertion | the insertion of the B-tree model, cut before the construction of the value, with slots that can be raw; destruction that checks the slots | partial | `C66_end_partial`, `C66_present`, `C66_inside_refuted`, `C66_first_refuted`, `C66_refuted`, `C66_empty_leaf_refuted` | False: unless the element goes behind the last element of a non-empty leaf, a raw slot remains among the elements (destruction is undefined) or a leaf without elements (reading it is undefined); in an empty container the node allocated first leaks. Proved for the remaining place. Moving elements is assumed not to throw; insertion without hint. |
| C67 | LRU cache used from many threads | one shared object per submap (map and list); each call one critical section of the sequential LRU model cut arbitrarily into atomic actions; reduction to the reference cache | partial | `C67_linearizable`, `C67_no_deadlock`, `C67_as_one_thread`, `C67_get_inserted`, `C67_shared_refuted` | Proved for mutexes without shared locks (the default std::mutex), and for shared mutexes if nobody calls get. False for a shared mutex: get moves a list node while it holds only a shared lock (C67_shared_refuted). size, reserve and set_cache_size take no locks and are excluded. |
| C68 | Memoized function with limited memory used from many threads | as for the LRU cache, with the section of operator() and contains | proved | `C68_linearizable`, `C68_value`, `C68_as_one_thread` | Function without recursive use of the memoized object (with a mutex that would lock twice). set_cache_size, size, reserve take no locks and are excluded. |
| C69 | Operations on whole parallel containers used from many threads | machine with several locks per thread; each call a chain of critical sections, each performing one step of the plan of the call; reduction to stepwise explanations | proved | `C69_stepwise`, `C69_contents`, `C69_code` | Two-container calls on different containers of one type (for the same container see C72). Callbacks do not call back into the container. With a shared mutex erase may answer wrongly as in C23; this is part of the specification of its step. |
| C70 | What a traversal guarantees while others modify the container | read off from the explanation of C69: the plan of the call gives the instants of its steps | proved | `C70_during` | Instants are those of the explanation, whose observable part is the history of calls and answers. |
| C71 | merge and swap between shared containers lose nothing | every step permutes the elements of the containers taken together; induction over the explanation | proved | `C71_conserved` |  |
| C72 | Operations on whole containers do not deadlock | lock ordering argument in the machine with several locks; explicit schedules for the refutations | partial | `C72_without_swap_partial`, `C72_ordered_partial`, `C72_swap_refuted`, `C72_equal_refuted`, `C72_self_swap_refuted`, `C72_self_equal_refuted` | False: swap takes its own lock and then that of its argument, so a.swap(b) in one thread and b.swap(a) in another can deadlock (C72_swap_refuted), with a shared mutex also a.swap(b) and b == a; a.swap(a), and a == a with a mutex without shared locks, wait for ever alone. Proved: no deadlock if nobody swaps, or if all swaps (and, with a shared mutex, comparisons) name the containers in one order. Shared locks are granted whenever nobody holds the mutex exclusively. |
| C73 | Dump and load of parallel containers | the loops over the submaps around the byte-level model of dump and load; induction over the submaps | proved | `C73_round_trip`, `C73_other_submaps` | One thread; all sizes and capacities fit in size_t and N < 64. The rejected load has consumed the word with the number of submaps. |
| C74 | Memory of hash tables | a layout is a list of element types with counts; offsets in 64-bit arithmetic with wrap-around; induction over the arrays | partial | `C74_layout`, `C74_table_partial`, `C74_overflow_refuted` | Proved when the number of bytes is less than 2^64. The code does not check it: refuted for slots of 7 bytes and a bucket count of 2^61-1, where 9 bytes are allocated for 2^61+16 control bytes. |
| C75 | Memory of B-tree nodes | the compile-time computation in 64-bit arithmetic; bisection invariant; C74 for the layouts; the B-tree invariant of C44 for the counters | proved | `C75_node_values`, `C75_nodes`, `C75_counters` | Slots of less than 4 GB; pointers of 8 bytes. The first theorem discharges the hypothesis 3 <= K of the B-tree theorems. The position stored in a root is not read by the code and not covered. |
| C76 | Failing allocation in B-tree containers | the functions of the model of C43 again with a number of allocations that succeed; the invariant of C43 weakened to allow inner nodes without values, which a failed split leaves; every call refines the spec; a simulation of each function by the one that does not fail | partial | `C76_history_partial`, `C76_enough`, `C76_copy`, `C76_assign`, `C76_leak_refuted`, `C76_begin_refuted` | Proved for callers that take no elements out (erase, extract, erase_if) between an insertion that failed after having allocated and the next clear(). Refuted otherwise: a failed split leaves an inner node with one child and no values, on which erasing relies on siblings that are not there. Then nodes are leaked, or the first leaf is empty and *begin() is undefined. |
| C77 | Failing allocation in hash containers | the allocating functions of the model of C01 again with a number of allocations that succeed; each is shown to do what the function of C01 does, or to leave its very table; the loop of merge by induction with the elements moved so far | partial | `C77_history_partial`, `C77_same`, `C77_never`, `C77_enough`, `C77_temporary`, `C77_temporary_refuted` | Proved for all calls but one: emplace(args...) from whose arguments the key cannot be read builds the element in raw storage on the stack first, and when the table then cannot grow nobody destroys that element (refuted; proved when memory suffices). Containers are numbered; the insertion of a node handle leaves the element in the handle. |
| C78 | Structure of arrays when memory runs out | the fold over the columns stopped at the column that throws; induction over histories with the repair | partial | `C78_throw_partial`, `C78_reserve_sort`, `C78_repair_partial`, `C78_mixed_refuted` | The first sentence is true only when the first column throws (or in reserve and sorting): otherwise size() counts a row whose reading is undefined, proved for every table, and after one more insertion the table shows a row that was never inserted (refuted). The rows of before stay readable. The second sentence is proved for all histories that do not sort a table without rows (C39_empty_refuted). Assumed of std::vector: push_back and resize change nothing when they throw. |
| C79 | Bit vectors when memory runs out | the sizes are written before the slots are asked for; from the simulation of C32 | partial | `C79_resize_partial`, `C79_copy_partial`, `C79_only`, `C79_repair`, `C79_repair_copy`, `C79_refuted` | Not true of the code: size() is already the new one and reading the last bit is undefined, proved for every vector. Proved: the bits of before stay readable, and resize to the size of before asks for no memory and gives exactly the vector of before. |
| C80 | Node handles own their elements | a handle is a flag and a piece of raw memory, transfers from or to the wrong kind of memory are undefined; simulation of the handles by optional elements on top of the simulation of C01; counting elements | proved | `C80_history`, `C80_owner`, `C80_rekey`, `C80_self_move` | std::swap is modelled by the three moves the standard prescribes. |
| C81 | A hash container can be used on after element constructors threw | Swiss/ThrowHist.lean: histories with throwing insertions; invariant that counts the elements that were counted but never constructed, in size_ and in growth_left. Refutation by evaluating a history of 95 calls and a lemma that a table without an empty byte is searched for ever. | partial | `C81_history_partial`, `C81_later_partial`, `C81_hang_refuted`, `C81_refuted` | False for the library in general. Proved: if nothing is erased, or with at most seven exceptions between calls of clear(), all calls but size() answer as if the throwing calls had not been made, size() is too large by the number of exceptions since clear(), and clear() makes the container as good as new. Refuted: with erasures and 30 exceptions the count exceeds the growth limit of the doubled table, growth_left wraps around, the table fills up completely and the search for an absent key never ends. |
| C82 | A memoized function that throws can be called on | Memo/Throw.lean and Memo/LruThrow.lean: operator() with an exception after any number of steps. Recursive or without mutex: invariant that the table holds exactly the completed values (Memo/ThrowSim.lean). With mutex: the function runs inside lazy_emplace_l, so the table counts elements never constructed (Memo/NonRec.lean). Size limit: the same with evictions (Memo/LruThrowSim.lean); refutation by evaluating a history. | partial | `C82_recursive`, `C82_recursive_ends`, `C82_mutex_partial`, `C82_size_refuted`, `C82_lru_partial`, `C82_hang_refuted` | Holds in full for functions that are recursive or memoized without a mutex. With a mutex and no recursion all answers but size() are right, and size() is too large by the number of exceptions. With a size limit the same is proved for at most seven exceptions; with 40 exceptions the table under the cache loses all its empty slots and the next call at a new argument never ends (refuted for all three group implementations). |
| C83 | Hash containers cost a constant amount of hashing and moving per inserted element, over any history | Model: Swiss/Cost.lean repeats the functions that hash or relocate with counters (hash calls, relocations, slots examined); the theorem also says that forgetting the counters gives the uncounted container. Spec/Cost.lean counts keys passed, elements added and places reserved on the abstract container. Proof: potential 2*(used slots) - growth limit, induction over the history; a rehash happens only when the potential equals the growth limit and resets it to zero. | proved | `C83_history_cost`, `C83_single_call_refuted` | Amortised bounds for every history, with the exact counters of a concrete history that rehashes in both ways beside it; the corresponding bound for single calls is refuted for every N. The construction of the new element itself, key comparisons and probe lengths are not counted. |
| C84 | Growing a vector element by element moves a constant number of elements per element added, over any history | Model: Vec/Cost.lean reads off data(), capacity() and size() how many elements an operation has moved to another buffer; Spec/SeqCost.lean counts the elements added. Proof: potential 3*size - 2*capacity; a new buffer has at least one and a half times the capacity; induction over the path. For resize: exact cost k(k-1)/2 for every k. | proved | `C84_growth_amortised`, `C84_push_back`, `C84_resize_quadratic` | Amortised bound for every history of gradual operations from every reachable state; the quadratic cost of growing with resize is proved for every k. Not counted: elements shifted inside a buffer by insert and erase, and operations that end with an exception. Insertion of ranges that can be read only once is not covered. |
| C85 | The B-tree containers compare keys a logarithmic number of times, and no more than once or twice where the place is known | Model: Btree/Cost.lean gives the functions that compare once more with a counter; Btree/CostSame.lean proves that without the counter they are the functions of C43. Spec/SortedSeqCost.lean states what each call may cost. Proof: halving within a node, induction down the tree with the depth bound of C44, the position of the hint read off the sequence, induction over ranges and histories. | proved | `C85_comparisons`, `C85_call`, `C85_sorted_range` | For every history from the empty container. A call of a three-way comparison counts as one. Not counted: comparisons of copies (none in the model), of merge and of the operators == and < (which compare elements, not keys). |
| C86 | A moved-from bit vector is a valid vector, and a move hands over all bits | Model: Bits/Move.lean adds the implicit move operations to the histories of C55; the source keeps its size and loses its slots. Specification: lists of bits, or nothing for a moved-from vector. Proof: simulation over histories; undefined behaviour of every reading call on a moved-from vector proved outright. | partial | `C86_history_partial`, `C86_target`, `C86_resize`, `C86_moved_from_refuted` | The code refutes the last part: for every non-empty vector, the source of a move construction keeps its size() but has no storage, so operator[], set, flip, any, every, count, find_first, ==, to_ullong and the hash have undefined behaviour (C86_moved_from_refuted). Proved for all histories in which a moved-from vector is only assigned to, copied, swapped or moved before its bits are used; resize after a move construction acts as on a new vector (C86_resize). |
| C87 | A hash function that throws | Model: Swiss/HashThrow.lean runs every call with a number of hash calls after which the next one throws, and keeps the half-moved tables. Specification: Spec/HashThrows.lean, a relation between contents before and after. Proof: invariant of a half-moved table (the old array is leaked, size() counts what is gone), simulation over histories; loss of elements proved for every container. | partial | `C87_history_partial`, `C87_later_partial`, `C87_first`, `C87_lookup`, `C87_reserved`, `C87_copy`, `C87_rehash_refuted`, `C87_insert_refuted`, `C87_refuted` | The code refutes that nothing is lost: an exception while the table grows or is rehashed in place loses the elements not yet moved, and size() still counts them (C87_rehash_refuted for every container, C87_insert_refuted). Proved for all histories with any number of exceptions: no undefined behaviour, no hang, contents are a part of what they should be, size() is off by exactly the lost elements (C87_history_partial); calls that do not rearrange lose nothing (C87_lookup), nor does an exception in the hash of the key (C87_first), nor insertions after reserve on a container without erasures (C87_reserved); copy construction cleans up (C87_copy). |
| C88 | A comparison that throws in B-tree containers | Model: Btree/CmpThrow.lean gives each call the number of comparisons before the one that throws, on top of the counting functions of C85, and keeps what an exception leaves. Specification: Spec/SortedSeqThrow.lean. Proof: each call returns what it returns without exceptions or throws with a stated state (Btree/CmpThrowProof.lean), it throws exactly when it makes more comparisons than given (Btree/CmpThrowCount.lean), and induction over histories. | partial | `C88_history_partial`, `C88_unchanged`, `C88_when`, `C88_merge_keeps`, `C88_merge_multi`, `C88_merge_multi_refuted`, `C88_order_refuted` | Proved for all histories: no undefined behaviour, calls on one container leave everything exactly as it was, ranges and merges stop at an element (C88_history_partial, C88_unchanged), and which calls throw (C88_when). A merge of containers without duplicates that throws loses nothing and leaves nothing twice (C88_merge_keeps). The code refutes this for merge of containers with duplicates, which moves all elements and clears the source only at the end: an exception leaves the first elements in both containers (C88_merge_multi_refuted), or, if moving changes keys, a source out of order that denies holding what it holds (C88_order_refuted); C88_merge_multi says what is left in every case. C88_history_partial excludes only merges of containers with duplicates whose moved elements lose their keys. |
| C89 | Memory goes back to the allocator it came from | Model: Alloc/Model.lean, containers that hold blocks of a heap that knows who handed out each block; giving a block to another allocator is undefined. Specification: the rules of the standard in Spec/AllocOwner.lean. Proof: each operation of each kind keeps exactly the held blocks outstanding (Alloc/Kinds.lean, Alloc/Par.lean), induction over histories (Alloc/Proof.lean). | partial | `C89_vector`, `C89_no_leak`, `C89_hash_partial`, `C89_hash_refuted`, `C89_btree_memory`, `C89_btree_partial`, `C89_btree_refuted`, `C89_parallel_memory`, `C89_parallel_partial`, `C89_parallel_refuted`, `C89_parallel_memory_refuted` | Proved in full for gtl::vector (C89_vector). The code refutes it for the others. Hash containers assign by a temporary and swap: if the traits propagate on assignment but not on swap, memory goes to the wrong allocator (C89_hash_refuted); for all other traits it holds (C89_hash_partial). B-tree containers never give memory to a wrong allocator (C89_btree_memory), but move assignment consults the trait of copy assignment and copies ignore select_on_container_copy_construction (C89_btree_refuted); otherwise it holds (C89_btree_partial). Parallel containers made by moving get a default allocator unless move assignment propagates (C89_parallel_refuted) and wrong frees if swap does not (C89_parallel_memory_refuted); C89_parallel_memory says what they do, C89_parallel_partial is the case in which it is right. No self-assignment in these histories. |
| C90 | Hash containers with a user supplied allocator never read through their null pointer | Model: Swiss/NullCtrl.lean, the table functions of phmap.hpp again, with the tests of the pointer; no control bytes can be read from a table without them. Specification: the abstract containers of Spec/Assoc.lean. Proof: every call follows the call with the default allocator (Swiss/NullCtrlProof.lean). | proved | `C90_history`, `C90_same`, `C90_untested` | In full: all histories over the calls of C01. C90_untested shows that the untested functions are undefined on such a container, so the tests are what makes it work. Exceptions, allocation failure and unequal allocators are covered by other properties, with the default allocator pointer. |
| C91 | Callbacks that throw while other threads use the container | Model: Conc/Throw.lean, the sections of Conc/Container.lean with a scope guard and two ways to leave it. Specification: Spec/CallbackThrow.lean. Proof: reduction to atomic sections (Conc/Reduction.lean), every section meets the specification (Conc/ThrowProof.lean). The last sentence is refuted. | partial | `C91_linearizable`, `C91_contents`, `C91_released`, `C91_no_deadlock`, `C91_shared_partial`, `C91_construct_refuted`, `C91_code` | Everything but the last sentence is proved in full; C91_construct_refuted shows that a throwing constructor callback makes size() one too large. With mutexes that have shared locks the answer of an erase whose key has gone is the one of C23 (C91_shared_partial). Callbacks of for_each and traversals that throw: C110. |
| C92 | Everything done to a shared object happens before its deletion | Model: Intrusive/Order.lean, the program of Intrusive/Threads.lean with a record of its events; memory orders are parameters. Specification: Spec/HappensBefore.lean. Proof: invariant that every event on an object is published in its counter or known to an owner (Intrusive/OrderProof.lean). C92_needed shows that no weaker order of the decrement would do. | proved | `C92_use_before_delete`, `C92_unique`, `C92_alive`, `C92_needed`, `C92_orders` | In full. Executions are listed in one order for all counters, which memory_order_seq_cst guarantees; handing a pointer to another thread is assumed to synchronise with it. |
| C93 | Thread safe calls have no data races | Model: the machines of Conc/Machine.lean and Conc/Multi.lean with a record of every lock operation and access (Conc/Race.lean). Specification: Spec/HappensBefore.lean with mutexes. Proof: in every execution the thread that is about to access a part holds its lock, exclusively if it may change it (from the invariants of C22 and C69); invariant over records: an access is still covered by a held lock, or its unlock happens before every later conflicting lock (Conc/RaceProof.lean). Refuted for lru_cache with a mutex that has shared locks: get changes the list under a shared lock. | partial | `C93_parallel`, `C93_throwing`, `C93_whole`, `C93_lru_partial`, `C93_lru_shared_refuted`, `C93_null`, `C93_records`, `C93_records_whole` | Proved for the parallel containers, in full, and for lru_cache with a mutex without shared locks (or without get); refuted for lru_cache::get with a mutex that has shared locks, a defect of the code. |
| C94 | Containers with hash function objects of their own | Model: a container is a function object and a table (Swiss/Functor.lean, Parallel/Functor.lean); function objects are any class with a call that may throw and a state left by a move. Specification: Spec/Functors.lean. Proof: simulation where each table satisfies the invariant of its own hash function; merge and == proved for two different functions. Refuted: moved-from containers lose a function object like std::function (the move constructor moves settings_ although its comment says that it copies), merge and == of parallel containers with different functions work submap by submap. | partial | `C94_history`, `C94_plain_partial`, `C94_usable`, `C94_moved_from`, `C94_moved_from_refuted`, `C94_parallel_partial`, `C94_parallel_merge_refuted`, `C94_parallel_equal_refuted` | Proved for all histories with function objects that a move leaves as they were (C94_history says what happens for all others); refuted, as a defect of the code, for moved-from containers with a function object such as std::function, and for merge and == between parallel containers with different functions. |
| C95 | B-tree containers with comparison objects of their own | Model: a container is a comparison object and a tree (Btree/Order.lean); comparison objects are any class with a call, which may be undefined, and a state left by a move. Specification: Spec/Orders.lean. Proof: simulation, each tree sorted by its own comparison (Btree/OrderProof.lean). Refuted for containers that are moved from: move assignment swaps the comparisons, move construction moves the comparison out. | partial | `C95_history`, `C95_kept_partial`, `C95_equal`, `C95_move_refuted`, `C95_take_refuted`, `C95_taken_undefined` | Everything but the last sentence is proved for all histories (C95_history says what moves leave). The last sentence is refuted, as a defect of the code: after a move assignment the source has the comparison of the destination, and after a move construction the remains of its own, with which inserting twice can be undefined. It is proved when move assignments are between containers with the same comparison and moving a comparison object copies it. Allocators are equal. |
| C96 | B-tree containers verify, and their statistics are right | Model: the functions on the nodes and pointers of the tree (Btree/Stats.lean). Proof: from the invariant of well-formed trees, by induction over the height; the nodes below the root are the nodes that are allocated, each once (Btree/StatsProof.lean). After a failed allocation verify() fails: refuted with a witness. | proved | `C96_verify`, `C96_stats`, `C96_fullness`, `C96_overhead`, `C96_alloc_refuted`, `C96_case` | The results of fullness() and overhead() are fractions, their rounding to double is not modelled, and the products in bytes_used() do not wrap. C96_alloc_refuted shows that the condition on exceptions is needed (the failed split of C76). |
| C97 | Results do not depend on where the tables are in memory | Model: tables that carry the address of their control bytes; every allocation takes the next address of an arbitrary sequence (Swiss/Salt.lean). Proof: at one address a table is an ordinary table with another hash function; growth, copies and merges pass elements between tables with different functions (Swiss/SaltProof.lean). | proved | `C97_history`, `C97_answers`, `C97_order`, `C97_bytes_move` | C97_order shows two sequences of addresses with different orders of iteration; C97_bytes_move shows why dump and load are left out in this mode. |
| C98 | B-tree containers with string keys are in dictionary order | Model: string_view::compare as the standard says, the two comparison objects, and the adapter (Btree/StringKeys.lean). Proof: the comparison is the order of the specification, by induction over strings; then C43 and C44 apply (Btree/StringKeysProof.lean). | proved | `C98_less`, `C98_greater`, `C98_history`, `C98_three_way`, `C98_case` | std::string_view::compare is modelled by its specification in the C++ standard. |
| C99 | Number of buckets and load factor of hash containers | Model: the table model of C01-C15. Specification: the sizes and requests of a history (Spec/Room.lean). Proof: for every member function what it does to the number of buckets (Swiss/Capacity.lean), then induction over histories with the invariant 7 * buckets <= 32 * P. Two findings: the documented range of the load factor is missed (1.0 with one element, 16/63 after erasures), and inserting an empty range into an empty container releases the reserved buckets. | partial | `C99_load`, `C99_memory`, `C99_memory_fresh`, `C99_grow`, `C99_grow_fresh`, `C99_keep_partial`, `C99_documented_refuted`, `C99_range_refuted` | Everything holds except the last sentence: inserting an empty random-access range into an empty container releases all buckets, also those just reserved (C99_range_refuted); C99_keep_partial excludes that call. The documented range of the load factor, 0.4375 to 0.875, is refuted by C99_documented_refuted. load_factor() itself returns a float; the theorems are about size() and bucket_count(), whose ratio it is. |

## Refuted properties

For each of these the negation, or a concrete reachable counterexample, is a theorem; the part that holds is the `_partial` theorem.

* C07: `Gtl.Props.Hash.C07_refuted`. The full statement is false for n = 0 (C07_refuted): rehash(0)/reserve(0) can fill the table completely and absent-key lookups then never terminate. Proved for every n > 0 and for n = 0 when the elements fit.
* C100: `Gtl.Props.SoaTables.C100_empty_refuted`. Everything except sorting a table without rows, which is undefined (C100_empty_refuted). Comparisons that call sort_by_field on a table of the same type themselves are not modelled.
* C101: `Gtl.Props.Parallel.C101_swap_refuted`. Proved: everything but swap. The documentation is wrong about swap (C101_swap_refuted): an iterator of a parallel container still refers to its element after a swap, but compares unequal to every iterator of the container the element is now in, erasing through it is undefined, and going on from it leads into the elements of the other container (C101_swap_iterator and C101_swap_walk describe this for all containers). Iterators of the ordinary containers do survive (C101_swap_plain). An insertion that finds the submap without room but reuses the slot of an erased element is not covered by C101_room_partial.
* C102: `Gtl.Props.Parallel.C102_reserve_refuted`, `Gtl.Props.Parallel.C102_balanced_refuted`, `Gtl.Props.Parallel.C102_erased_refuted`. False as it stands (C102_reserve_refuted): the reservation is divided among the submaps, and all elements may fall into one. True if no submap gets more than n divided by the number of submaps, except with the portable group implementation when this share is 7 (C102_balanced_refuted). Proved for reservations on a newly constructed container, and on one that has elements already but from which nothing was erased (C102_used_partial, C102_used_iterators_partial); if something was, the claim is false (C102_erased_refuted). Erasures after the reservation are allowed.
* C103: `Gtl.Props.Lru.C103_bound_refuted`, `Gtl.Props.Lru.C103_lost_refuted`, `Gtl.Props.Lru.C103_answer_refuted`. False as it stands. If copying the key into the index or the key of the dropped entry throws, an entry that cannot be found stays in the list: the cache exceeds its size for good (C103_bound_refuted) and dropping the remainder later takes a newer entry with the same key out of the index (C103_lost_refuted). If the copy handed to the caller of the lambda throws, a later get for the dropped key is undefined behaviour (C103_answer_refuted). Proved for histories with at most seven throwing insertions, none of the last kind: all answers (C103_history_partial), get returns only the latest value that was inserted (C103_latest_partial), at most one key too many for each exception (C103_bound_partial); if only the copy of the value or the allocation of the entry throws, all answers but size() are as if the insertion had not been made (C103_mild_partial). With more exceptions a search may never end, as for C82. The same lines are in memoize.hpp:232-242.
* C105: `Gtl.Props.Intrusive.C105_pop_refuted`. C105_pop_refuted shows that the last sentence of the property is needed: with two pointers, *a = *a->first is undefined if nothing else owns the source (with one pointer it is not, and C105_history covers that case). Not modelled: copy operations written by the user, copies of objects that are not owned by pointers.
* C107: `Gtl.Props.BtreeQuery.C107_count_erase_refuted`, `Gtl.Props.BtreeQuery.C107_lower_refuted`. Proved in full for multisets and multimaps, and in all containers for upper_bound, find and contains and whenever at most one element matches. Refuted for sets and maps when several elements match: count(q) is 1 and erase(q) removes one match (C107_count_erase_refuted); with a three way comparison and nodes searched by halves lower_bound(q), and so equal_range(q), start at some match that need not be the first (C107_lower_refuted). C107_count_erase_one and C107_lower_any say what holds in these cases.
* C108: `Gtl.Props.HashQuery.C108_all_refuted`, `Gtl.Props.HashQuery.C108_parallel_all_refuted`. Proved in full for find, contains, extract, for things that stand for a key and for keys, and for count, equal_range and erase whenever at most one element matches. Refuted when several elements match (C108_all_refuted, C108_parallel_all_refuted): count(q) is 1, equal_range(q) holds one match and erase(q) removes one. C108_lookup and C108_erase say what holds in this case.
* C109: `Gtl.Props.VecHandover.C109_attach_refuted`, `Gtl.Props.VecHandover.C109_capacity_refuted`. The rules are those of the comments in the code. Broken rules: attach to a vector that has a buffer leaks it in a release build (C109_attach_refuted), and a wrong capacity leads to writes outside the buffer (C109_capacity_refuted). compactResize for element types that can be copied or moved without exceptions, and the operations of the vector with the restrictions of C45. steal_data() cannot be instantiated.
* C110: `Gtl.Props.Walk.C110_copied_refuted`. C110_no_deadlock if nobody swaps containers (C72). C110_copied_refuted: a function object that counts what it is shown and throws at the second element is shown two elements and does not throw, since std::for_each copies it for every submap. The overloads with an execution policy are not modelled. An exception from a mutex is not modelled.
* C111: `Gtl.Props.IntrusiveConvert.C111_history_refuted`. False where the base class is abstract or cannot be copied: the constructor from intrusive_ptr<U>&& is enabled by a condition on the classes instead of pointers to them, so that the copy constructor is taken and the source keeps its reference (C111_history_refuted; C111_move says exactly what happens). Proved: everything for other classes (C111_history_partial); for all classes, no undefined behaviour and correct counts (C111_any). Copy assignment from another pointer type does not compile. Destructors as in C41; that deleting through a base class runs the right destructor is up to the class.
* C113: `Gtl.Props.ParAlloc.C113_copy_refuted`. A user may expect of copy assignment what the ordinary containers give: that one which throws changes nothing. That is refuted (C113_copy_refuted: the destination is left with a mixture); the history theorem states the mixture exactly. The memory of the elements themselves is not counted; the temporary of emplace without a key among its arguments leaks as in C77. rehash with fewer buckets than submaps is excluded, as in C21. Several threads are in C112.
* C114: `Gtl.Props.Archive.C114_reports_refuted`. The last sentence is refuted (C114_reports_refuted, C114_silent_loss, C114_not_opened): saveBinary and phmap_dump answer true even if the file was not opened or the device is full, and so does loading the result. Everything else is proved. The buffer of the stream is not modelled. All containers of one archive share one element type and hash in the model.
* C115: `Gtl.Props.Reenter.C115_same_key_refuted`, `Gtl.Props.Reenter.C115_other_key_refuted`, `Gtl.Props.Reenter.C115_erase_if_refuted`, `Gtl.Props.Reenter.C115_erase_twice_refuted`, `Gtl.Props.Reenter.C115_create_refuted`. One thread. The condition is exact for modify_if, if_contains and elements that are there (C115_locked_twice); for erase_if and for callbacks that create elements, concrete programs that break it are shown to be undefined. The callback uses the reference to its element before it makes calls. Reallocation to the same capacity is not seen as reallocation.
* C116: `Gtl.Props.Nested.C116_opposite_refuted`, `Gtl.Props.Nested.C116_same_submap_refuted`. Calls on one key. With a shared mutex, erase may say that it erased though the key had gone (C23). The callback uses its element before it makes calls; callbacks of erase_if and those that create elements make no calls. A shared lock is granted whenever nobody holds the lock exclusively, also if somebody waits for it. Deadlock freedom says that some thread can always go on, not that the scheduler lets it.
* C117: `Gtl.Props.Parallel.C117_total_refuted`. One thread. load_factor() is modelled before the rounding to a floating point number. C117_total_refuted: a container that never holds more than one element can have as many buckets as submaps. C117_reserve_zero: reserve(0) allocates a bucket in every submap.
* C119: `Gtl.Props.ScopedThrow.C119_set_value_refuted`, `Gtl.Props.ScopedThrow.C119_terminate_refuted`, `Gtl.Props.ScopedThrow.C119_replace_refuted`. Refuted for scoped_set_value and replace: they move the old value away before they assign the new one, and when this assignment throws nobody puts it back, so the variable is left moved-from (C119_set_value_refuted, C119_replace_refuted). Also refuted: that the exception reaches the caller; the noexcept specifications look at copying and moving only, so that an assignment from another type, a default constructor or a comparison that throws ends the program (C119_terminate_refuted, C119_change_terminates). The partial theorems say when the claim holds; change never loses the value.
* C120: `Gtl.Props.Timestamps.C120_touch_refuted`. Refuted without a mutex: the clock is shared by all timestamps and not atomic. In every execution in which two threads have made a call of touch, on whatever timestamps, there is a data race (C120_touch_refuted), and even with atomic accesses two touches can give equal timestamps (C120_lost). Proved: with a mutex around every call, for calls that only look, and for a single thread (C120_one_thread: the accesses one by one give the answers of C51).
* C121: `Gtl.Props.Lazy.C121_value_refuted`, `Gtl.Props.Lazy.C121_once_refuted`. A value that is read is the right one. Proved in full for functions that return references to objects that stay. Refuted for functions that return values: operator[] returns a reference to a temporary, so reading any element but the first is undefined (C121_value_refuted). Elements are not remembered: the Fibonacci number at index i takes fib(i+2)-1 calls (C121_calls, C121_once_refuted); a comment in the code says so.
* C123: `Gtl.Props.Stopwatch.C123_nested_refuted`, `Gtl.Props.Stopwatch.C123_set_back_refuted`. That times are not negative is proved for clocks that do not go back; high_resolution_clock need not be one, and then it is refuted (C123_set_back_refuted). The time of a block is proved for blocks that do not start the same stopwatch, and refuted for nested ones (C123_nested_refuted). Times are in ticks; their conversion to floating point numbers and overflow of the ticks are not modelled.
* C125: `Gtl.Props.MapSlots.C125_throws_refuted`, `Gtl.Props.MapNodes.C125_leak_refuted`, `Gtl.Props.MapSlots.C125_self_swap_refuted`. Proved if no copy throws, for single nodes, for the functions that move elements between a node, its sibling and their parent, and for all sequences of these calls (C125_history_partial: the counts are right and every place that does not count is empty; C125_clear_partial: clearing the nodes afterwards leaves no object). C125_order and C125_split_order are about the specification alone: the calls that move elements between siblings keep their order. The last sentence is refuted: move destroys the destination before it copies the key into it, so after an exception in a removal (for every node, C125_erase_throws) or, unless it was the first copy, in an insertion, a place that counts as an element holds no object, and destroying the container is undefined. When elements are moved between nodes, unless it was the first copy, an object stays behind the elements of a node and nobody destroys it (for all nodes, C125_rebalance_left_throws, C125_rebalance_right_throws, C125_merge_throws, C125_split_throws). Swapping an element with itself is undefined if keys are copied. Which of these functions the containers call is the subject of C01 and C43, with other models. Moves of keys and values do not throw.
* C15: `Gtl.Props.Hash.C15_refuted`, `Gtl.Props.Hash.C15_copy_throw_refuted`. The full statement is false: size() is one too large after the exception. Contents and lookups are proved unchanged.
* C16: `Gtl.Props.Dump.C16_legacy_small_refuted`. Versioned archives (what phmap_dump writes): proved in full. Archives in the older layout without version word are also accepted by phmap_load; those restore only tables with at least one group of slots (C16_legacy_partial), smaller ones are undefined behaviour (C16_legacy_small_refuted).
* C17: `Gtl.Props.Dump.C17_refuted`, `Gtl.Props.ParDump.C17_parallel_refuted`. The property is false of the code. Proved instead: no truncation after the 24-byte header is ever reported, and two truncation points at which the resulting container is inconsistent (size without elements; elements never read). For parallel containers: an archive cut between two submaps is accepted and the elements of the remaining submaps are silently missing.
* C23: `Gtl.Props.Concurrent.C23_shared_refuted`. Holds for mutexes without shared mode (C23_exclusive). With a shared_mutex erase(key) looks up under the shared lock, releases it and locks again: the count reported by two racing erases can be wrong (C23_shared_refuted); what remains true is C23_shared_partial.
* C24: `Gtl.Props.Guards.C24_try_to_lock_refuted`, `Gtl.Props.Guards.C24_try_to_lock_shared_refuted`. All guard operations except the try_to_lock constructor; with it the property is false: a successful attempt is not remembered and the mutex is never released.
* C25: `Gtl.Props.Parallel.C25_rehash_refuted`, `Gtl.Props.Parallel.C25_self_refuted`. merge, swap, ==, clear, reserve proved. False as stated: rehash(n) with n smaller than the number of submaps calls rehash(0) on each submap, after which a lookup can hang (C25_rehash_refuted); comparing or swapping a container with itself locks each mutex twice (C25_self_refuted).
* C28: `Gtl.Props.Lru.C28_copy_refuted`, `Gtl.Props.Lru.C28_move_refuted`, `Gtl.Props.Lru.C28_refuted_instance`. False: the recency lists are neither copied nor moved, so the new cache refers to nodes of the old one's lists. For every history and every key held, get and insert on the copy are undefined. exists and size are right.
* C32: `Gtl.Props.Bits.C32_set_all_empty_refuted`. For every reachable vector. set() and reset() on a vector with no bits form &_s[0] of an empty std::vector, which is undefined (C32_set_all_empty_refuted); everything else holds in full.
* C35: `Gtl.Props.Bits.C35_contains_shorter_refuted`. All queries hold in full except contains with a shorter operand, which the assertion allows and which reads past its end (C35_contains_shorter_refuted).
* C36: `Gtl.Props.Bits.C36_find_next_refuted`. find_first on a vector holds in full. For views the exact condition under which the result is right is proved; find_next(4) on 70 bits with bits 3 and 65 set returns 69 (C36_find_next_refuted).
* C37: `Gtl.Props.Bits.C37_refuted`. resize(n, true) from a size that is not a multiple of 64 leaves the new bits of the old last slot false (C37_refuted). C37_resize_actual says what happens in every case.
* C38: `Gtl.Props.Bits.C38_overlap_refuted`, `Gtl.Props.Bits.C38_direction_refuted`. Holds between different vectors, and in one vector when the destination starts at or below the source. Otherwise false: overlapping views are corrupted, and a destination above the source is copied to the source.
* C39: `Gtl.Props.Soa.C39_empty_refuted`. Any number of columns (at least one), any value types, any number of rows but zero: sorting a table without rows clears a bit_vector without bits, which is undefined (C39_empty_refuted, see C32). std::stable_sort is any function that meets the contract of the standard (Sorter.Ok; isort_ok shows one exists); the cycle-following reorder is modelled step by step with moved-from cells; C100 has the same with the bit_vector itself.
* C42: `Gtl.Props.IntrusiveThreads.C42_unsafe_refuted`. any number of threads and objects, all schedules of atomic actions (sequential consistency: the operations on std::atomic used are seq_cst); pointers may be handed between threads; fewer than 2^32 minus the number of threads pointers per object
* C45: `Gtl.Props.Vector.C45_emplace_alias_false`, `Gtl.Props.Vector.C45_overflow_false`, `Gtl.Props.Vector.C45_memset_false`, `Gtl.Props.Vector.C45_shrink_false`. All operations of any number of vectors, all histories, aliased arguments included. Missing, and refuted with witnesses (the _false theorems): emplace of an own element within the capacity, n*sizeof(T) overflowing size_t, types whose zero bytes are not the value-initialised object, shrink_to_fit of types that can neither be copied nor moved without exceptions.
* C46: `Gtl.Props.Utils.C46_stride_refuted`, `Gtl.Props.Utils.C46_python_refuted`, `Gtl.Props.Utils.C46_negative_refuted`. What slice does is proved for all arguments: C46_slice (positive strides), C46_negative (negative strides: empty or std::length_error), C46_undefined (indices outside the vector, stride zero). The expected elements are returned when the stride divides last-first. Refuted: other strides lose the last element; negative indices are one off from Python (-1 is the end); negative strides give nothing.
* C47: `Gtl.Props.Utils.C47_signed_refuted`, `Gtl.Props.Utils.C47_negative_double_refuted`. full for unsigned integers and integers smaller than int; for signed integers when r-l does not overflow, otherwise refuted (undefined behaviour); for doubles when l >= 0, otherwise refuted (looking for 0.5 between -1.0 and 1.0 never ends). A double is modelled by its bits with the IEEE value
* C48: `Gtl.Props.HashBits.C48_mixers_refuted`. all of it for keys, combiners and the portable mixer; refuted for the two other mixers (multiplication to 128 bits, and the one for 32 bits), which map different inputs to the same value. Types with their own hash_value or std::hash are represented by an arbitrary function of the value; size_t of 64 bits except for the 32-bit combiner and mixer
* C49: `Gtl.Props.HashBits.C49_apple_refuted`. all of it for the portable code; refuted for the variants of gbswap_16 and gbswap_64 selected on Apple systems with compilers other than GCC and Clang, which call each other's system function. Compiler built-ins and intrinsics are not modelled
* C50: `Gtl.Props.Utils.C50_alias_refuted`. programs: sequences, branches on the state, nested and catching blocks, exceptions, dismissal by name; functions run by destructors do not throw. C50_alias_refuted records that scoped_set_value(v, v) and replace(v, v) lose the value
* C51: `Gtl.Props.Utils.C51_number_refuted`. histories of fewer than 2^64 operations of one thread (the clock is a plain 64-bit integer) without the constructor from a number, for which C51_number_refuted shows that the order is lost
* C52: `Gtl.Props.Bits.C52_overlap_refuted`. Holds unless both views are in one vector and the destination starts inside the source; then bits already written are read again (C52_overlap_refuted).
* C53: `Gtl.Props.Bits.C53_view_word_refuted`. Vectors in full. A view that crosses a slot boundary shifts by a negative count (C53_view_word_refuted).
* C56: `Gtl.Props.Memo.C56_refuted`. refuted: the function runs inside lazy_emplace_l after a slot was chosen, and the recursive call fills the same slot. Proved for functions that do not call the memoized function. With a real mutex the recursive call moreover locks a mutex the thread may already hold.
* C62: `Gtl.Props.Btree.C62_own_element_refuted`, `Gtl.Props.Btree.C62_own_element_hint_refuted`. Proved for containers without duplicates. False for multisets and multimaps: s.insert(*s.begin()) reads the element after the leaf that held it was freed.
* C64: `Gtl.Props.Hash.C64_refuted`. False: whenever the insertion enlarges the table, the argument is read after the old slots were freed (C64_grow_dangles); m.try_emplace(2, m.at(1)) on a map with one element does it. Proved when the key is present, and within reserved room.
* C65: `Gtl.Props.Hash.C65_refuted`. False: reserve(28), 28 insertions, one removal and one insertion double the capacity (C65_refuted). Proved: nothing moves when nothing was erased (C08_reserve), or while the number of insertions made stays within the reserved room (C63_flat_reserved).
* C66: `Gtl.Props.Btree.C66_inside_refuted`, `Gtl.Props.Btree.C66_first_refuted`, `Gtl.Props.Btree.C66_refuted`, `Gtl.Props.Btree.C66_empty_leaf_refuted`. False: unless the element goes behind the last element of a non-empty leaf, a raw slot remains among the elements (destruction is undefined) or a leaf without elements (reading it is undefined); in an empty container the node allocated first leaks. Proved for the remaining place. Moving elements is assumed not to throw; insertion without hint.
* C67: `Gtl.Props.LruThreads.C67_shared_refuted`. Proved for mutexes without shared locks (the default std::mutex), and for shared mutexes if nobody calls get. False for a shared mutex: get moves a list node while it holds only a shared lock (C67_shared_refuted). size, reserve and set_cache_size take no locks and are excluded.
* C72: `Gtl.Props.Share.C72_swap_refuted`, `Gtl.Props.Share.C72_equal_refuted`, `Gtl.Props.Share.C72_self_swap_refuted`, `Gtl.Props.Share.C72_self_equal_refuted`. False: swap takes its own lock and then that of its argument, so a.swap(b) in one thread and b.swap(a) in another can deadlock (C72_swap_refuted), with a shared mutex also a.swap(b) and b == a; a.swap(a), and a == a with a mutex without shared locks, wait for ever alone. Proved: no deadlock if nobody swaps, or if all swaps (and, with a shared mutex, comparisons) name the containers in one order. Shared locks are granted whenever nobody holds the mutex exclusively.
* C74: `Gtl.Props.Layout.C74_overflow_refuted`. Proved when the number of bytes is less than 2^64. The code does not check it: refuted for slots of 7 bytes and a bucket count of 2^61-1, where 9 bytes are allocated for 2^61+16 control bytes.
* C76: `Gtl.Props.Btree.C76_leak_refuted`, `Gtl.Props.Btree.C76_begin_refuted`. Proved for callers that take no elements out (erase, extract, erase_if) between an insertion that failed after having allocated and the next clear(). Refuted otherwise: a failed split leaves an inner node with one child and no values, on which erasing relies on siblings that are not there. Then nodes are leaked, or the first leaf is empty and *begin() is undefined.
* C77: `Gtl.Props.HashAlloc.C77_temporary_refuted`. Proved for all calls but one: emplace(args...) from whose arguments the key cannot be read builds the element in raw storage on the stack first, and when the table then cannot grow nobody destroys that element (refuted; proved when memory suffices). Containers are numbered; the insertion of a node handle leaves the element in the handle.
* C78: `Gtl.Props.SoaFail.C78_mixed_refuted`. The first sentence is true only when the first column throws (or in reserve and sorting): otherwise size() counts a row whose reading is undefined, proved for every table, and after one more insertion the table shows a row that was never inserted (refuted). The rows of before stay readable. The second sentence is proved for all histories that do not sort a table without rows (C39_empty_refuted). Assumed of std::vector: push_back and resize change nothing when they throw.
* C79: `Gtl.Props.Bits.C79_refuted`. Not true of the code: size() is already the new one and reading the last bit is undefined, proved for every vector. Proved: the bits of before stay readable, and resize to the size of before asks for no memory and gives exactly the vector of before.
* C81: `Gtl.Props.HashThrow.C81_hang_refuted`, `Gtl.Props.HashThrow.C81_refuted`. False for the library in general. Proved: if nothing is erased, or with at most seven exceptions between calls of clear(), all calls but size() answer as if the throwing calls had not been made, size() is too large by the number of exceptions since clear(), and clear() makes the container as good as new. Refuted: with erasures and 30 exceptions the count exceeds the growth limit of the doubled table, growth_left wraps around, the table fills up completely and the search for an absent key never ends.
* C82: `Gtl.Props.MemoThrow.C82_size_refuted`, `Gtl.Props.MemoThrow.C82_hang_refuted`. Holds in full for functions that are recursive or memoized without a mutex. With a mutex and no recursion all answers but size() are right, and size() is too large by the number of exceptions. With a size limit the same is proved for at most seven exceptions; with 40 exceptions the table under the cache loses all its empty slots and the next call at a new argument never ends (refuted for all three group implementations).
* C83: `Gtl.Props.HashCost.C83_single_call_refuted`. Amortised bounds for every history, with the exact counters of a concrete history that rehashes in both ways beside it; the corresponding bound for single calls is refuted for every N. The construction of the new element itself, key comparisons and probe lengths are not counted.
* C86: `Gtl.Props.Bits.C86_moved_from_refuted`. The code refutes the last part: for every non-empty vector, the source of a move construction keeps its size() but has no storage, so operator[], set, flip, any, every, count, find_first, ==, to_ullong and the hash have undefined behaviour (C86_moved_from_refuted). Proved for all histories in which a moved-from vector is only assigned to, copied, swapped or moved before its bits are used; resize after a move construction acts as on a new vector (C86_resize).
* C87: `Gtl.Props.HashFnThrow.C87_rehash_refuted`, `Gtl.Props.HashFnThrow.C87_insert_refuted`, `Gtl.Props.HashFnThrow.C87_refuted`. The code refutes that nothing is lost: an exception while the table grows or is rehashed in place loses the elements not yet moved, and size() still counts them (C87_rehash_refuted for every container, C87_insert_refuted). Proved for all histories with any number of exceptions: no undefined behaviour, no hang, contents are a part of what they should be, size() is off by exactly the lost elements (C87_history_partial); calls that do not rearrange lose nothing (C87_lookup), nor does an exception in the hash of the key (C87_first), nor insertions after reserve on a container without erasures (C87_reserved); copy construction cleans up (C87_copy).
* C88: `Gtl.Props.BtreeCmpThrow.C88_merge_multi_refuted`, `Gtl.Props.BtreeCmpThrow.C88_order_refuted`. Proved for all histories: no undefined behaviour, calls on one container leave everything exactly as it was, ranges and merges stop at an element (C88_history_partial, C88_unchanged), and which calls throw (C88_when). A merge of containers without duplicates that throws loses nothing and leaves nothing twice (C88_merge_keeps). The code refutes this for merge of containers with duplicates, which moves all elements and clears the source only at the end: an exception leaves the first elements in both containers (C88_merge_multi_refuted), or, if moving changes keys, a source out of order that denies holding what it holds (C88_order_refuted); C88_merge_multi says what is left in every case. C88_history_partial excludes only merges of containers with duplicates whose moved elements lose their keys.
* C89: `Gtl.Props.AllocOwner.C89_hash_refuted`, `Gtl.Props.AllocOwner.C89_btree_refuted`, `Gtl.Props.AllocOwner.C89_parallel_refuted`, `Gtl.Props.AllocOwner.C89_parallel_memory_refuted`. Proved in full for gtl::vector (C89_vector). The code refutes it for the others. Hash containers assign by a temporary and swap: if the traits propagate on assignment but not on swap, memory goes to the wrong allocator (C89_hash_refuted); for all other traits it holds (C89_hash_partial). B-tree containers never give memory to a wrong allocator (C89_btree_memory), but move assignment consults the trait of copy assignment and copies ignore select_on_container_copy_construction (C89_btree_refuted); otherwise it holds (C89_btree_partial). Parallel containers made by moving get a default allocator unless move assignment propagates (C89_parallel_refuted) and wrong frees if swap does not (C89_parallel_memory_refuted); C89_parallel_memory says what they do, C89_parallel_partial is the case in which it is right. No self-assignment in these histories.
* C91: `Gtl.Props.CallbackThrow.C91_construct_refuted`. Everything but the last sentence is proved in full; C91_construct_refuted shows that a throwing constructor callback makes size() one too large. With mutexes that have shared locks the answer of an erase whose key has gone is the one of C23 (C91_shared_partial). Callbacks of for_each and traversals that throw: C110.
* C93: `Gtl.Props.Race.C93_lru_shared_refuted`. Proved for the parallel containers, in full, and for lru_cache with a mutex without shared locks (or without get); refuted for lru_cache::get with a mutex that has shared locks, a defect of the code.
* C94: `Gtl.Props.Functors.C94_moved_from_refuted`, `Gtl.Props.Functors.C94_parallel_merge_refuted`, `Gtl.Props.Functors.C94_parallel_equal_refuted`. Proved for all histories with function objects that a move leaves as they were (C94_history says what happens for all others); refuted, as a defect of the code, for moved-from containers with a function object such as std::function, and for merge and == between parallel containers with different functions.
* C95: `Gtl.Props.BtreeOrders.C95_move_refuted`, `Gtl.Props.BtreeOrders.C95_take_refuted`. Everything but the last sentence is proved for all histories (C95_history says what moves leave). The last sentence is refuted, as a defect of the code: after a move assignment the source has the comparison of the destination, and after a move construction the remains of its own, with which inserting twice can be undefined. It is proved when move assignments are between containers with the same comparison and moving a comparison object copies it. Allocators are equal.
* C96: `Gtl.Props.BtreeStats.C96_alloc_refuted`. The results of fullness() and overhead() are fractions, their rounding to double is not modelled, and the products in bytes_used() do not wrap. C96_alloc_refuted shows that the condition on exceptions is needed (the failed split of C76).
* C99: `Gtl.Props.Hash.C99_documented_refuted`, `Gtl.Props.Hash.C99_range_refuted`. Everything holds except the last sentence: inserting an empty random-access range into an empty container releases all buckets, also those just reserved (C99_range_refuted); C99_keep_partial excludes that call. The documented range of the load factor, 0.4375 to 0.875, is refuted by C99_documented_refuted. load_factor() itself returns a float; the theorems are about size() and bucket_count(), whose ratio it is.
