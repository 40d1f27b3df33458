{
 "claims": [
  {
   "property": "C01",
   "status": "proved",
   "theorems": [
    "Gtl.Props.Hash.C01_history",
    "Gtl.Props.Hash.C01_behaves",
    "Gtl.Props.Hash.spec_lookup_insert",
    "Gtl.Props.Hash.spec_lookup_erase",
    "Gtl.Props.Hash.spec_lookup_modify"
   ],
   "note": "All histories over any number of containers, refinement to Verif/Spec/Assoc.lean. reserve/rehash with n>0 as in the statement."
  },
  {
   "property": "C02",
   "status": "proved",
   "theorems": [
    "Gtl.Props.Hash.C02_calls_return"
   ],
   "note": "ok result = no out-of-bounds access, no raw slot access, loops end."
  },
  {
   "property": "C03",
   "status": "proved",
   "theorems": [
    "Gtl.Props.Hash.C03_insert",
    "Gtl.Props.Hash.C03_insert_or_assign"
   ],
   "note": ""
  },
  {
   "property": "C04",
   "status": "proved",
   "theorems": [
    "Gtl.Props.Hash.C04_size"
   ],
   "note": ""
  },
  {
   "property": "C05",
   "status": "proved",
   "theorems": [
    "Gtl.Props.Hash.C05_iteration"
   ],
   "note": ""
  },
  {
   "property": "C06",
   "status": "proved",
   "theorems": [
    "Gtl.Props.Hash.C06_erase_iterator",
    "Gtl.Props.Hash.C06_erase_if",
    "Gtl.Props.Hash.C06_erase_range"
   ],
   "note": ""
  },
  {
   "property": "C07",
   "status": "partial",
   "theorems": [
    "Gtl.Props.Hash.C07_rehash_partial",
    "Gtl.Props.Hash.C07_reserve_partial",
    "Gtl.Props.Hash.C07_rehash_zero_hangs",
    "Gtl.Props.Hash.C07_refuted"
   ],
   "note": "The full statement is false for n = 0 (C07_refuted): rehash(0)/reserve(0) can fill the table completely and absent-key lookups then never terminate. Proved for every n > 0 and for n = 0 when the elements fit."
  },
  {
   "property": "C08",
   "status": "proved",
   "theorems": [
    "Gtl.Props.Hash.C08_reserve"
   ],
   "note": ""
  },
  {
   "property": "C09",
   "status": "proved",
   "theorems": [
    "Gtl.Props.Hash.C09_cleanup",
    "Gtl.Props.Hash.C09_drop_deletes"
   ],
   "note": ""
  },
  {
   "property": "C10",
   "status": "proved",
   "theorems": [
    "Gtl.Props.Hash.C10_clear"
   ],
   "note": ""
  },
  {
   "property": "C100",
   "status": "partial",
   "theorems": [
    "Gtl.Props.SoaTables.C100_sort_partial",
    "Gtl.Props.SoaTables.C100_tables_partial",
    "Gtl.Props.SoaTables.C100_empty_refuted"
   ],
   "note": "Everything except sorting a table without rows, which is undefined (C100_empty_refuted). Comparisons that call sort_by_field on a table of the same type themselves are not modelled."
  },
  {
   "property": "C101",
   "status": "partial",
   "theorems": [
    "Gtl.Props.Parallel.C101_room_partial",
    "Gtl.Props.Parallel.C101_no_adds_partial",
    "Gtl.Props.Parallel.C101_one_submap",
    "Gtl.Props.Parallel.C101_swap_iterator",
    "Gtl.Props.Parallel.C101_swap_walk",
    "Gtl.Props.Parallel.C101_swap_plain",
    "Gtl.Props.Parallel.C101_swap_refuted"
   ],
   "note": "Proved: everything but swap. The documentation is wrong about swap (C101_swap_refuted): an iterator of a parallel container still refers to its element after a swap, but compares unequal to every iterator of the container the element is now in, erasing through it is undefined, and going on from it leads into the elements of the other container (C101_swap_iterator and C101_swap_walk describe this for all containers). Iterators of the ordinary containers do survive (C101_swap_plain). An insertion that finds the submap without room but reuses the slot of an erased element is not covered by C101_room_partial."
  },
  {
   "property": "C102",
   "status": "partial",
   "theorems": [
    "Gtl.Props.Parallel.C102_no_resize_partial",
    "Gtl.Props.Parallel.C102_used_partial",
    "Gtl.Props.Parallel.C102_iterators_partial",
    "Gtl.Props.Parallel.C102_used_iterators_partial",
    "Gtl.Props.Parallel.C102_reserve_refuted",
    "Gtl.Props.Parallel.C102_balanced_refuted",
    "Gtl.Props.Parallel.C102_erased_refuted"
   ],
   "note": "False as it stands (C102_reserve_refuted): the reservation is divided among the submaps, and all elements may fall into one. True if no submap gets more than n divided by the number of submaps, except with the portable group implementation when this share is 7 (C102_balanced_refuted). Proved for reservations on a newly constructed container, and on one that has elements already but from which nothing was erased (C102_used_partial, C102_used_iterators_partial); if something was, the claim is false (C102_erased_refuted). Erasures after the reservation are allowed."
  },
  {
   "property": "C103",
   "status": "partial",
   "theorems": [
    "Gtl.Props.Lru.C103_history_partial",
    "Gtl.Props.Lru.C103_latest_partial",
    "Gtl.Props.Lru.C103_mild_partial",
    "Gtl.Props.Lru.C103_bound_partial",
    "Gtl.Props.Lru.C103_bound_refuted",
    "Gtl.Props.Lru.C103_lost_refuted",
    "Gtl.Props.Lru.C103_answer_refuted"
   ],
   "note": "False as it stands. If copying the key into the index or the key of the dropped entry throws, an entry that cannot be found stays in the list: the cache exceeds its size for good (C103_bound_refuted) and dropping the remainder later takes a newer entry with the same key out of the index (C103_lost_refuted). If the copy handed to the caller of the lambda throws, a later get for the dropped key is undefined behaviour (C103_answer_refuted). Proved for histories with at most seven throwing insertions, none of the last kind: all answers (C103_history_partial), get returns only the latest value that was inserted (C103_latest_partial), at most one key too many for each exception (C103_bound_partial); if only the copy of the value or the allocation of the entry throws, all answers but size() are as if the insertion had not been made (C103_mild_partial). With more exceptions a search may never end, as for C82. The same lines are in memoize.hpp:232-242."
  },
  {
   "property": "C104",
   "status": "proved",
   "theorems": [
    "Gtl.Props.Share.C104_during",
    "Gtl.Props.Share.C104_visit_alone",
    "Gtl.Props.Share.C104_change_alone",
    "Gtl.Props.Share.C104_progress"
   ],
   "note": "The policies seq and par. With unseq and par_unseq the standard forbids callbacks that take locks, so that the library must not be called with them; this is not modelled. std::for_each with a policy is represented by its contract: every submap is handed to some worker exactly once, between the beginning and the end of the call. Callbacks that throw with a policy terminate the program and are not modelled."
  },
  {
   "property": "C105",
   "status": "proved",
   "theorems": [
    "Gtl.Props.Intrusive.C105_history",
    "Gtl.Props.Intrusive.C105_step_unique",
    "Gtl.Props.Intrusive.C105_copy",
    "Gtl.Props.Intrusive.C105_pop_refuted"
   ],
   "note": "C105_pop_refuted shows that the last sentence of the property is needed: with two pointers, *a = *a->first is undefined if nothing else owns the source (with one pointer it is not, and C105_history covers that case). Not modelled: copy operations written by the user, copies of objects that are not owned by pointers."
  },
  {
   "property": "C106",
   "status": "proved",
   "theorems": [
    "Gtl.Props.Asked.C106_hash",
    "Gtl.Props.Asked.C106_parallel",
    "Gtl.Props.Asked.C106_btree",
    "Gtl.Props.Asked.C106_asked_once",
    "Gtl.Props.Asked.C106_pure"
   ],
   "note": "C106_asked_once and C106_pure explain the specification: what a predicate is asked about, and that for predicates without memory the call is a filter. erase_if of gtl::vector calls std::remove_if, for which the standard library leaves open what is left after an exception; it is not covered."
  },
  {
   "property": "C107",
   "status": "partial",
   "theorems": [
    "Gtl.Props.BtreeQuery.C107_upper",
    "Gtl.Props.BtreeQuery.C107_lower_partial",
    "Gtl.Props.BtreeQuery.C107_lower_any",
    "Gtl.Props.BtreeQuery.C107_find",
    "Gtl.Props.BtreeQuery.C107_contains",
    "Gtl.Props.BtreeQuery.C107_count_erase_multi",
    "Gtl.Props.BtreeQuery.C107_count_erase_one",
    "Gtl.Props.BtreeQuery.C107_count_erase_partial",
    "Gtl.Props.BtreeQuery.C107_count_erase_refuted",
    "Gtl.Props.BtreeQuery.C107_lower_refuted"
   ],
   "note": "Proved in full for multisets and multimaps, and in all containers for upper_bound, find and contains and whenever at most one element matches. Refuted for sets and maps when several elements match: count(q) is 1 and erase(q) removes one match (C107_count_erase_refuted); with a three way comparison and nodes searched by halves lower_bound(q), and so equal_range(q), start at some match that need not be the first (C107_lower_refuted). C107_count_erase_one and C107_lower_any say what holds in these cases."
  },
  {
   "property": "C108",
   "status": "partial",
   "theorems": [
    "Gtl.Props.HashQuery.C108_lookup",
    "Gtl.Props.HashQuery.C108_erase",
    "Gtl.Props.HashQuery.C108_all_partial",
    "Gtl.Props.HashQuery.C108_same",
    "Gtl.Props.HashQuery.C108_equal_range",
    "Gtl.Props.HashQuery.C108_all_refuted",
    "Gtl.Props.HashQuery.C108_parallel_lookup",
    "Gtl.Props.HashQuery.C108_parallel_erase",
    "Gtl.Props.HashQuery.C108_parallel_erase_if",
    "Gtl.Props.HashQuery.C108_parallel_all_partial",
    "Gtl.Props.HashQuery.C108_parallel_equal_range",
    "Gtl.Props.HashQuery.C108_parallel_all_refuted"
   ],
   "note": "Proved in full for find, contains, extract, for things that stand for a key and for keys, and for count, equal_range and erase whenever at most one element matches. Refuted when several elements match (C108_all_refuted, C108_parallel_all_refuted): count(q) is 1, equal_range(q) holds one match and erase(q) removes one. C108_lookup and C108_erase say what holds in this case."
  },
  {
   "property": "C109",
   "status": "proved",
   "theorems": [
    "Gtl.Props.VecHandover.C109_programs",
    "Gtl.Props.VecHandover.C109_effect",
    "Gtl.Props.VecHandover.C109_throws",
    "Gtl.Props.VecHandover.C109_in_place",
    "Gtl.Props.VecHandover.C109_emptied",
    "Gtl.Props.VecHandover.C109_round_trip",
    "Gtl.Props.VecHandover.C109_no_leak",
    "Gtl.Props.VecHandover.C109_compact",
    "Gtl.Props.VecHandover.C109_frame",
    "Gtl.Props.VecHandover.C109_attach_refuted",
    "Gtl.Props.VecHandover.C109_capacity_refuted"
   ],
   "note": "The rules are those of the comments in the code. Broken rules: attach to a vector that has a buffer leaks it in a release build (C109_attach_refuted), and a wrong capacity leads to writes outside the buffer (C109_capacity_refuted). compactResize for element types that can be copied or moved without exceptions, and the operations of the vector with the restrictions of C45. steal_data() cannot be instantiated."
  },
  {
   "property": "C11",
   "status": "proved",
   "theorems": [
    "Gtl.Props.Hash.C11_copy",
    "Gtl.Props.Hash.C11_move",
    "Gtl.Props.Hash.C11_swap",
    "Gtl.Props.Hash.C01_history"
   ],
   "note": "Independence of later changes is part of C01_history (histories with copies)."
  },
  {
   "property": "C110",
   "status": "proved",
   "theorems": [
    "Gtl.Props.Walk.C110_stepwise",
    "Gtl.Props.Walk.C110_contents",
    "Gtl.Props.Walk.C110_during",
    "Gtl.Props.Walk.C110_alone",
    "Gtl.Props.Walk.C110_released",
    "Gtl.Props.Walk.C110_no_deadlock",
    "Gtl.Props.Walk.C110_copied_refuted",
    "Gtl.Props.Walk.C110_code"
   ],
   "note": "C110_no_deadlock if nobody swaps containers (C72). C110_copied_refuted: a function object that counts what it is shown and throws at the second element is shown two elements and does not throw, since std::for_each copies it for every submap. The overloads with an execution policy are not modelled. An exception from a mutex is not modelled."
  },
  {
   "property": "C111",
   "status": "partial",
   "theorems": [
    "Gtl.Props.IntrusiveConvert.C111_history_partial",
    "Gtl.Props.IntrusiveConvert.C111_any",
    "Gtl.Props.IntrusiveConvert.C111_move",
    "Gtl.Props.IntrusiveConvert.C111_history_refuted"
   ],
   "note": "False where the base class is abstract or cannot be copied: the constructor from intrusive_ptr<U>&& is enabled by a condition on the classes instead of pointers to them, so that the copy constructor is taken and the source keeps its reference (C111_history_refuted; C111_move says exactly what happens). Proved: everything for other classes (C111_history_partial); for all classes, no undefined behaviour and correct counts (C111_any). Copy assignment from another pointer type does not compile. Destructors as in C41; that deleting through a base class runs the right destructor is up to the class."
  },
  {
   "property": "C112",
   "status": "partial",
   "theorems": [
    "Gtl.Props.ConcAlloc.C112_linearizable",
    "Gtl.Props.ConcAlloc.C112_contents",
    "Gtl.Props.ConcAlloc.C112_enough",
    "Gtl.Props.ConcAlloc.C112_released",
    "Gtl.Props.ConcAlloc.C112_no_deadlock",
    "Gtl.Props.ConcAlloc.C112_shared_partial",
    "Gtl.Props.ConcAlloc.C112_code"
   ],
   "note": "Proved in full for exclusive mutexes, and for mutexes with shared locks if nobody erases; with shared locks and erasing threads the answer of an erase whose key has gone is the one of C23 (C112_shared_partial), everything else holds. The memory of the elements themselves is not counted. emplace with arguments that do not contain the key leaks its temporary element (C77). reserve, insertion of ranges and merge are not among the calls; for containers with one table they are in C77."
  },
  {
   "property": "C113",
   "status": "partial",
   "theorems": [
    "Gtl.Props.ParAlloc.C113_history_partial",
    "Gtl.Props.ParAlloc.C113_same",
    "Gtl.Props.ParAlloc.C113_capacity",
    "Gtl.Props.ParAlloc.C113_never",
    "Gtl.Props.ParAlloc.C113_enough",
    "Gtl.Props.ParAlloc.C113_copy_refuted"
   ],
   "note": "A user may expect of copy assignment what the ordinary containers give: that one which throws changes nothing. That is refuted (C113_copy_refuted: the destination is left with a mixture); the history theorem states the mixture exactly. The memory of the elements themselves is not counted; the temporary of emplace without a key among its arguments leaks as in C77. rehash with fewer buckets than submaps is excluded, as in C21. Several threads are in C112."
  },
  {
   "property": "C114",
   "status": "partial",
   "theorems": [
    "Gtl.Props.Archive.C114_restores_partial",
    "Gtl.Props.Archive.C114_full_disk",
    "Gtl.Props.Archive.C114_any_archive",
    "Gtl.Props.Archive.C114_appending",
    "Gtl.Props.Archive.C114_not_opened",
    "Gtl.Props.Archive.C114_nothing_there",
    "Gtl.Props.Archive.C114_silent_loss",
    "Gtl.Props.Archive.C114_reports_refuted"
   ],
   "note": "The last sentence is refuted (C114_reports_refuted, C114_silent_loss, C114_not_opened): saveBinary and phmap_dump answer true even if the file was not opened or the device is full, and so does loading the result. Everything else is proved. The buffer of the stream is not modelled. All containers of one archive share one element type and hash in the model."
  },
  {
   "property": "C115",
   "status": "proved",
   "theorems": [
    "Gtl.Props.Reenter.C115_callbacks",
    "Gtl.Props.Reenter.C115_no_mutex",
    "Gtl.Props.Reenter.C115_locked_twice",
    "Gtl.Props.Reenter.C115_same_key_refuted",
    "Gtl.Props.Reenter.C115_other_key_refuted",
    "Gtl.Props.Reenter.C115_erase_if_refuted",
    "Gtl.Props.Reenter.C115_erase_twice_refuted",
    "Gtl.Props.Reenter.C115_create_refuted"
   ],
   "note": "One thread. The condition is exact for modify_if, if_contains and elements that are there (C115_locked_twice); for erase_if and for callbacks that create elements, concrete programs that break it are shown to be undefined. The callback uses the reference to its element before it makes calls. Reallocation to the same capacity is not seen as reallocation."
  },
  {
   "property": "C116",
   "status": "proved",
   "theorems": [
    "Gtl.Props.Nested.C116_nested_calls",
    "Gtl.Props.Nested.C116_contents",
    "Gtl.Props.Nested.C116_undisturbed",
    "Gtl.Props.Nested.C116_upwards",
    "Gtl.Props.Nested.C116_alone",
    "Gtl.Props.Nested.C116_opposite_refuted",
    "Gtl.Props.Nested.C116_same_submap_refuted",
    "Gtl.Props.Nested.C116_code"
   ],
   "note": "Calls on one key. With a shared mutex, erase may say that it erased though the key had gone (C23). The callback uses its element before it makes calls; callbacks of erase_if and those that create elements make no calls. A shared lock is granted whenever nobody holds the lock exclusively, also if somebody waits for it. Deadlock freedom says that some thread can always go on, not that the scheduler lets it."
  },
  {
   "property": "C117",
   "status": "proved",
   "theorems": [
    "Gtl.Props.Parallel.C117_load",
    "Gtl.Props.Parallel.C117_memory",
    "Gtl.Props.Parallel.C117_grow",
    "Gtl.Props.Parallel.C117_keep",
    "Gtl.Props.Parallel.C117_create",
    "Gtl.Props.Parallel.C117_total_refuted",
    "Gtl.Props.Parallel.C117_reserve_zero"
   ],
   "note": "One thread. load_factor() is modelled before the rounding to a floating point number. C117_total_refuted: a container that never holds more than one element can have as many buckets as submaps. C117_reserve_zero: reserve(0) allocates a bucket in every submap."
  },
  {
   "property": "C118",
   "status": "proved",
   "theorems": [
    "Gtl.Props.Debug.C118_probes",
    "Gtl.Props.Debug.C118_parallel",
    "Gtl.Props.Debug.C118_new",
    "Gtl.Props.Debug.C118_bytes",
    "Gtl.Props.Debug.C118_block",
    "Gtl.Props.Debug.C118_lower"
   ],
   "note": "One thread. The counter of probes is a natural number. The lower bound needs that the sizes fit in the address space; otherwise both numbers wrap around."
  },
  {
   "property": "C119",
   "status": "partial",
   "theorems": [
    "Gtl.Props.ScopedThrow.C119_restores",
    "Gtl.Props.ScopedThrow.C119_construct",
    "Gtl.Props.ScopedThrow.C119_set_value_refuted",
    "Gtl.Props.ScopedThrow.C119_set_value_partial",
    "Gtl.Props.ScopedThrow.C119_terminate_refuted",
    "Gtl.Props.ScopedThrow.C119_terminate_partial",
    "Gtl.Props.ScopedThrow.C119_restore_throws",
    "Gtl.Props.ScopedThrow.C119_replace",
    "Gtl.Props.ScopedThrow.C119_replace_refuted",
    "Gtl.Props.ScopedThrow.C119_change",
    "Gtl.Props.ScopedThrow.C119_change_terminates"
   ],
   "note": "Refuted for scoped_set_value and replace: they move the old value away before they assign the new one, and when this assignment throws nobody puts it back, so the variable is left moved-from (C119_set_value_refuted, C119_replace_refuted). Also refuted: that the exception reaches the caller; the noexcept specifications look at copying and moving only, so that an assignment from another type, a default constructor or a comparison that throws ends the program (C119_terminate_refuted, C119_change_terminates). The partial theorems say when the claim holds; change never loses the value."
  },
  {
   "property": "C12",
   "status": "proved",
   "theorems": [
    "Gtl.Props.Hash.C12_equality",
    "Gtl.Props.Hash.C12_reflexive"
   ],
   "note": ""
  },
  {
   "property": "C120",
   "status": "partial",
   "theorems": [
    "Gtl.Props.Timestamps.C120_clock",
    "Gtl.Props.Timestamps.C120_touch_refuted",
    "Gtl.Props.Timestamps.C120_lost",
    "Gtl.Props.Timestamps.C120_looking",
    "Gtl.Props.Timestamps.C120_one_thread",
    "Gtl.Props.Timestamps.C120_guarded"
   ],
   "note": "Refuted without a mutex: the clock is shared by all timestamps and not atomic. In every execution in which two threads have made a call of touch, on whatever timestamps, there is a data race (C120_touch_refuted), and even with atomic accesses two touches can give equal timestamps (C120_lost). Proved: with a mutex around every call, for calls that only look, and for a single thread (C120_one_thread: the accesses one by one give the answers of C51)."
  },
  {
   "property": "C121",
   "status": "partial",
   "theorems": [
    "Gtl.Props.Lazy.C121_first",
    "Gtl.Props.Lazy.C121_right",
    "Gtl.Props.Lazy.C121_read_partial",
    "Gtl.Props.Lazy.C121_ends_partial",
    "Gtl.Props.Lazy.C121_value_refuted",
    "Gtl.Props.Lazy.C121_calls",
    "Gtl.Props.Lazy.C121_once_refuted"
   ],
   "note": "A value that is read is the right one. Proved in full for functions that return references to objects that stay. Refuted for functions that return values: operator[] returns a reference to a temporary, so reading any element but the first is undefined (C121_value_refuted). Elements are not remembered: the Fibonacci number at index i takes fib(i+2)-1 calls (C121_calls, C121_once_refuted); a comment in the code says so."
  },
  {
   "property": "C122",
   "status": "proved",
   "theorems": [
    "Gtl.Props.SoaRows.C122_stays",
    "Gtl.Props.SoaRows.C122_reserve",
    "Gtl.Props.SoaRows.C122_reserved",
    "Gtl.Props.SoaRows.C122_grow",
    "Gtl.Props.SoaRows.C122_write",
    "Gtl.Props.SoaRows.C122_patch",
    "Gtl.Props.SoaRows.C122_assign",
    "Gtl.Props.SoaRows.C122_assign_all"
   ],
   "note": "Of std::vector it is assumed that it stays in its block as long as there is room, and makes enough room when it moves. Sorting a table without rows is undefined (C39_empty_refuted), but such a table has no row to use. References to destroyed elements whose place is used again are taken to refer to the new element."
  },
  {
   "property": "C123",
   "status": "partial",
   "theorems": [
    "Gtl.Props.Stopwatch.C123_reads",
    "Gtl.Props.Stopwatch.C123_steady_partial",
    "Gtl.Props.Stopwatch.C123_scope_partial",
    "Gtl.Props.Stopwatch.C123_not_started",
    "Gtl.Props.Stopwatch.C123_basic",
    "Gtl.Props.Stopwatch.C123_nested_refuted",
    "Gtl.Props.Stopwatch.C123_set_back_refuted"
   ],
   "note": "That times are not negative is proved for clocks that do not go back; high_resolution_clock need not be one, and then it is refuted (C123_set_back_refuted). The time of a block is proved for blocks that do not start the same stopwatch, and refuted for nested ones (C123_nested_refuted). Times are in ticks; their conversion to floating point numbers and overflow of the ticks are not modelled."
  },
  {
   "property": "C124",
   "status": "proved",
   "theorems": [
    "Gtl.Props.Stale.C124_newer",
    "Gtl.Props.Stale.C124_older",
    "Gtl.Props.Stale.C124_stale",
    "Gtl.Props.Stale.C124_fresh"
   ],
   "note": "One thread; several threads race for the clock (C120)."
  },
  {
   "property": "C125",
   "status": "partial",
   "theorems": [
    "Gtl.Props.MapSlots.C125_insert_partial",
    "Gtl.Props.MapSlots.C125_erase_partial",
    "Gtl.Props.MapSlots.C125_transfer_partial",
    "Gtl.Props.MapSlots.C125_swap_partial",
    "Gtl.Props.MapNodes.C125_rebalance_left_partial",
    "Gtl.Props.MapNodes.C125_rebalance_right_partial",
    "Gtl.Props.MapNodes.C125_merge_partial",
    "Gtl.Props.MapNodes.C125_split_partial",
    "Gtl.Props.MapNodes.C125_swap_nodes_partial",
    "Gtl.Props.MapNodes.C125_step_partial",
    "Gtl.Props.MapNodes.C125_history_partial",
    "Gtl.Props.MapNodes.C125_clear_partial",
    "Gtl.Props.MapNodes.C125_order",
    "Gtl.Props.MapNodes.C125_split_order",
    "Gtl.Props.MapSlots.C125_erase_throws",
    "Gtl.Props.MapSlots.C125_insert_throws",
    "Gtl.Props.MapSlots.C125_throws_refuted",
    "Gtl.Props.MapNodes.C125_rebalance_left_throws",
    "Gtl.Props.MapNodes.C125_rebalance_right_throws",
    "Gtl.Props.MapNodes.C125_merge_throws",
    "Gtl.Props.MapNodes.C125_split_throws",
    "Gtl.Props.MapNodes.C125_leak_refuted",
    "Gtl.Props.MapSlots.C125_self_swap_refuted"
   ],
   "note": "Proved if no copy throws, for single nodes, for the functions that move elements between a node, its sibling and their parent, and for all sequences of these calls (C125_history_partial: the counts are right and every place that does not count is empty; C125_clear_partial: clearing the nodes afterwards leaves no object). C125_order and C125_split_order are about the specification alone: the calls that move elements between siblings keep their order. The last sentence is refuted: move destroys the destination before it copies the key into it, so after an exception in a removal (for every node, C125_erase_throws) or, unless it was the first copy, in an insertion, a place that counts as an element holds no object, and destroying the container is undefined. When elements are moved between nodes, unless it was the first copy, an object stays behind the elements of a node and nobody destroys it (for all nodes, C125_rebalance_left_throws, C125_rebalance_right_throws, C125_merge_throws, C125_split_throws). Swapping an element with itself is undefined if keys are copied. Which of these functions the containers call is the subject of C01 and C43, with other models. Moves of keys and values do not throw."
  },
  {
   "property": "C13",
   "status": "proved",
   "theorems": [
    "Gtl.Props.Hash.C13_merge"
   ],
   "note": ""
  },
  {
   "property": "C14",
   "status": "proved",
   "theorems": [
    "Gtl.Props.Hash.C14_extract",
    "Gtl.Props.Hash.C14_insert_node"
   ],
   "note": ""
  },
  {
   "property": "C15",
   "status": "partial",
   "theorems": [
    "Gtl.Props.Hash.C15_throw_partial",
    "Gtl.Props.Hash.C15_size_off_by_one",
    "Gtl.Props.Hash.C15_refuted",
    "Gtl.Props.Hash.C15_copy_throw_refuted"
   ],
   "note": "The full statement is false: size() is one too large after the exception. Contents and lookups are proved unchanged."
  },
  {
   "property": "C16",
   "status": "proved",
   "theorems": [
    "Gtl.Props.Dump.C16_round_trip",
    "Gtl.Props.Dump.C16_legacy_partial",
    "Gtl.Props.Dump.C16_legacy_small_refuted"
   ],
   "note": "Versioned archives (what phmap_dump writes): proved in full. Archives in the older layout without version word are also accepted by phmap_load; those restore only tables with at least one group of slots (C16_legacy_partial), smaller ones are undefined behaviour (C16_legacy_small_refuted)."
  },
  {
   "property": "C17",
   "status": "partial",
   "theorems": [
    "Gtl.Props.Dump.C17_never_detected",
    "Gtl.Props.Dump.C17_header_only",
    "Gtl.Props.Dump.C17_missing_elements",
    "Gtl.Props.Dump.C17_refuted",
    "Gtl.Props.ParDump.C17_parallel_cut",
    "Gtl.Props.ParDump.C17_parallel_refuted"
   ],
   "note": "The property is false of the code. Proved instead: no truncation after the 24-byte header is ever reported, and two truncation points at which the resulting container is inconsistent (size without elements; elements never read). For parallel containers: an archive cut between two submaps is accepted and the elements of the remaining submaps are silently missing."
  },
  {
   "property": "C18",
   "status": "proved",
   "theorems": [
    "Gtl.Props.Hash.C18_group",
    "Gtl.Props.Hash.C18_same_results"
   ],
   "note": ""
  },
  {
   "property": "C19",
   "status": "proved",
   "theorems": [
    "Gtl.Props.Hash.C19_probe_covers",
    "Gtl.Props.Hash.C19_lookup_bound"
   ],
   "note": ""
  },
  {
   "property": "C20",
   "status": "proved",
   "theorems": [
    "Gtl.Props.Hash.C20_equivalent_keys",
    "Gtl.Props.Hash.C20_one_per_class"
   ],
   "note": ""
  },
  {
   "property": "C21",
   "status": "proved",
   "theorems": [
    "Gtl.Props.Parallel.C21_history",
    "Gtl.Props.Parallel.C21_behaves",
    "Gtl.Props.Parallel.C21_same_as_ordinary",
    "Gtl.Props.Parallel.C21_submaps"
   ],
   "note": "All N, hashes, mutex kinds and single-thread histories over any number of containers, including the callback functions. rehash(n) is restricted to n >= 2^N (see C25)."
  },
  {
   "property": "C22",
   "status": "proved",
   "theorems": [
    "Gtl.Props.Concurrent.C22_linearizable",
    "Gtl.Props.Concurrent.C22_contents",
    "Gtl.Props.Concurrent.C22_no_deadlock",
    "Gtl.Props.Concurrent.C22_code"
   ],
   "note": "Every interleaving of any number of threads calling the keyed operations (insert, emplace, try_emplace, insert_or_assign, lazy_emplace_l, modify_if, if_contains, contains, erase by key, erase_if) on one container. Data-race freedom gives sequential consistency (trusted); mutexes are standard."
  },
  {
   "property": "C23",
   "status": "partial",
   "theorems": [
    "Gtl.Props.Concurrent.C23_exclusive",
    "Gtl.Props.Concurrent.C23_shared_partial",
    "Gtl.Props.Concurrent.C23_shared_linearizable_partial",
    "Gtl.Props.Concurrent.C23_shared_refuted"
   ],
   "note": "Holds for mutexes without shared mode (C23_exclusive). With a shared_mutex erase(key) looks up under the shared lock, releases it and locks again: the count reported by two racing erases can be wrong (C23_shared_refuted); what remains true is C23_shared_partial."
  },
  {
   "property": "C24",
   "status": "partial",
   "theorems": [
    "Gtl.Props.Guards.C24_balanced_partial",
    "Gtl.Props.Guards.C24_released_partial",
    "Gtl.Props.Guards.C24_switch",
    "Gtl.Props.Guards.C24_try_to_lock_refuted",
    "Gtl.Props.Guards.C24_try_to_lock_shared_refuted"
   ],
   "note": "All guard operations except the try_to_lock constructor; with it the property is false: a successful attempt is not remembered and the mutex is never released."
  },
  {
   "property": "C25",
   "status": "partial",
   "theorems": [
    "Gtl.Props.Parallel.C25_merge",
    "Gtl.Props.Parallel.C25_swap",
    "Gtl.Props.Parallel.C25_equal",
    "Gtl.Props.Parallel.C25_clear",
    "Gtl.Props.Parallel.C25_reserve",
    "Gtl.Props.Parallel.C25_rehash_partial",
    "Gtl.Props.Parallel.C25_rehash_refuted",
    "Gtl.Props.Parallel.C25_self_refuted"
   ],
   "note": "merge, swap, ==, clear, reserve proved. False as stated: rehash(n) with n smaller than the number of submaps calls rehash(0) on each submap, after which a lookup can hang (C25_rehash_refuted); comparing or swapping a container with itself locks each mutex twice (C25_self_refuted)."
  },
  {
   "property": "C26",
   "status": "proved",
   "theorems": [
    "Gtl.Props.Lru.C26_reference",
    "Gtl.Props.Lru.C26_get_latest",
    "Gtl.Props.Lru.C26_get_inserted"
   ],
   "note": "All histories, sizes, hash functions and shard counts. C26_reference: every answer equals that of a reference cache."
  },
  {
   "property": "C27",
   "status": "proved",
   "theorems": [
    "Gtl.Props.Lru.C27_most_recent",
    "Gtl.Props.Lru.C27_get_most_recent",
    "Gtl.Props.Lru.C27_size"
   ],
   "note": "All histories in which the size is not changed, every size and shard count."
  },
  {
   "property": "C28",
   "status": "partial",
   "theorems": [
    "Gtl.Props.Lru.C28_copy_refuted",
    "Gtl.Props.Lru.C28_move_refuted",
    "Gtl.Props.Lru.C28_refuted_instance",
    "Gtl.Props.Lru.C28_exists_partial"
   ],
   "note": "False: the recency lists are neither copied nor moved, so the new cache refers to nodes of the old one's lists. For every history and every key held, get and insert on the copy are undefined. exists and size are right."
  },
  {
   "property": "C29",
   "status": "proved",
   "theorems": [
    "Gtl.Props.Memo.C29_only_values",
    "Gtl.Props.Memo.C29_transparent",
    "Gtl.Props.Memo.C29_threads",
    "Gtl.Props.Memo.C29_lru"
   ],
   "note": "recursive and non-recursive functions; for every history of calls, contains, clear, reserve, size (one thread); for every schedule of calls, contains, clear by any number of threads with a real mutex; with a size limit for functions that are not recursive (see C56). Functions whose body depends on more than the equality class of the argument are excluded."
  },
  {
   "property": "C30",
   "status": "proved",
   "theorems": [
    "Gtl.Props.Memo.C30_once",
    "Gtl.Props.Memo.C30_called",
    "Gtl.Props.Memo.C30_contains",
    "Gtl.Props.Memo.C30_size",
    "Gtl.Props.Memo.C30_threads_linearizable",
    "Gtl.Props.Memo.C30_threads_once"
   ],
   "note": "one thread: histories with clear and reserve, recursive functions; many threads: recursive == false"
  },
  {
   "property": "C31",
   "status": "proved",
   "theorems": [
    "Gtl.Props.Memo.C31_reference",
    "Gtl.Props.Memo.C31_runs",
    "Gtl.Props.Memo.C31_contains",
    "Gtl.Props.Memo.C31_size"
   ],
   "note": "the code keeps n/shards - 1 values per shard, one less than the configured share; size fixed during the history for C31_runs, C31_contains and C31_size, any history for C31_reference; function not recursive"
  },
  {
   "property": "C32",
   "status": "partial",
   "theorems": [
    "Gtl.Props.Bits.C32_create",
    "Gtl.Props.Bits.C32_set",
    "Gtl.Props.Bits.C32_flip",
    "Gtl.Props.Bits.C32_flip_all",
    "Gtl.Props.Bits.C32_set_all_partial",
    "Gtl.Props.Bits.C32_set_all_empty_refuted",
    "Gtl.Props.Bits.C32_view_set",
    "Gtl.Props.Bits.C32_view_flip"
   ],
   "note": "For every reachable vector. set() and reset() on a vector with no bits form &_s[0] of an empty std::vector, which is undefined (C32_set_all_empty_refuted); everything else holds in full."
  },
  {
   "property": "C33",
   "status": "proved",
   "theorems": [
    "Gtl.Props.Bits.C33_assign",
    "Gtl.Props.Bits.C33_assign_self",
    "Gtl.Props.Bits.C33_op",
    "Gtl.Props.Bits.C33_not",
    "Gtl.Props.Bits.C33_unused_zero"
   ],
   "note": "All sizes and contents; the operand may be the same vector. C33_unused_zero: after any history of calls the storage has no stray bits."
  },
  {
   "property": "C34",
   "status": "proved",
   "theorems": [
    "Gtl.Props.Bits.C34_right",
    "Gtl.Props.Bits.C34_left",
    "Gtl.Props.Bits.C34_view_right",
    "Gtl.Props.Bits.C34_view_left",
    "Gtl.Props.Bits.C34_meaning"
   ],
   "note": "All sizes, views and shift counts."
  },
  {
   "property": "C35",
   "status": "partial",
   "theorems": [
    "Gtl.Props.Bits.C35_any",
    "Gtl.Props.Bits.C35_every",
    "Gtl.Props.Bits.C35_count",
    "Gtl.Props.Bits.C35_equal",
    "Gtl.Props.Bits.C35_hash",
    "Gtl.Props.Bits.C35_view_any",
    "Gtl.Props.Bits.C35_view_every",
    "Gtl.Props.Bits.C35_view_count",
    "Gtl.Props.Bits.C35_view_equal",
    "Gtl.Props.Bits.C35_view_disjoint",
    "Gtl.Props.Bits.C35_view_contains_partial",
    "Gtl.Props.Bits.C35_contains_shorter_refuted"
   ],
   "note": "All queries hold in full except contains with a shorter operand, which the assertion allows and which reads past its end (C35_contains_shorter_refuted)."
  },
  {
   "property": "C36",
   "status": "partial",
   "theorems": [
    "Gtl.Props.Bits.C36_find_first",
    "Gtl.Props.Bits.C36_view_find_first_partial",
    "Gtl.Props.Bits.C36_find_next_partial",
    "Gtl.Props.Bits.C36_find_next_refuted"
   ],
   "note": "find_first on a vector holds in full. For views the exact condition under which the result is right is proved; find_next(4) on 70 bits with bits 3 and 65 set returns 69 (C36_find_next_refuted)."
  },
  {
   "property": "C37",
   "status": "partial",
   "theorems": [
    "Gtl.Props.Bits.C37_resize_partial",
    "Gtl.Props.Bits.C37_resize_actual",
    "Gtl.Props.Bits.C37_refuted"
   ],
   "note": "resize(n, true) from a size that is not a multiple of 64 leaves the new bits of the old last slot false (C37_refuted). C37_resize_actual says what happens in every case."
  },
  {
   "property": "C38",
   "status": "partial",
   "theorems": [
    "Gtl.Props.Bits.C38_other_vector",
    "Gtl.Props.Bits.C38_same_vector_partial",
    "Gtl.Props.Bits.C38_overlap_refuted",
    "Gtl.Props.Bits.C38_direction_refuted"
   ],
   "note": "Holds between different vectors, and in one vector when the destination starts at or below the source. Otherwise false: overlapping views are corrupted, and a destination above the source is copied to the source."
  },
  {
   "property": "C39",
   "status": "partial",
   "theorems": [
    "Gtl.Props.Soa.C39_sort_partial",
    "Gtl.Props.Soa.C39_stable",
    "Gtl.Props.Soa.C39_unique",
    "Gtl.Props.Soa.C39_empty_refuted"
   ],
   "note": "Any number of columns (at least one), any value types, any number of rows but zero: sorting a table without rows clears a bit_vector without bits, which is undefined (C39_empty_refuted, see C32). std::stable_sort is any function that meets the contract of the standard (Sorter.Ok; isort_ok shows one exists); the cycle-following reorder is modelled step by step with moved-from cells; C100 has the same with the bit_vector itself."
  },
  {
   "property": "C40",
   "status": "partial",
   "theorems": [
    "Gtl.Props.Soa.C40_rows_partial"
   ],
   "note": "Missing: histories that sort a table without rows, which is undefined (C39_empty_refuted). Writes through operator[], view or get_column are among the operations; C122 says how long such references can be used. Writing through get_column so as to change the length of one column alone is outside the API modelled (the accessor returns the vector by reference)."
  },
  {
   "property": "C41",
   "status": "proved",
   "theorems": [
    "Gtl.Props.Intrusive.C41_history",
    "Gtl.Props.Intrusive.C41_step_unique"
   ],
   "note": "objects may have intrusive pointers as members, so deletion cascades and cyclic structures are covered; fewer than 2^32-1 owners per object at any time (32-bit counter); conversions between pointer types are not modelled; the converting copy assignment (intrusive.hpp:102-107) compares pointers of different types and would not compile, so it is not modelled separately"
  },
  {
   "property": "C42",
   "status": "proved",
   "theorems": [
    "Gtl.Props.IntrusiveThreads.C42_safe",
    "Gtl.Props.IntrusiveThreads.C42_quiescent",
    "Gtl.Props.IntrusiveThreads.C42_progress",
    "Gtl.Props.IntrusiveThreads.C42_unsafe_refuted"
   ],
   "note": "any number of threads and objects, all schedules of atomic actions (sequential consistency: the operations on std::atomic used are seq_cst); pointers may be handed between threads; fewer than 2^32 minus the number of threads pointers per object"
  },
  {
   "property": "C43",
   "status": "proved",
   "theorems": [
    "Gtl.Props.Btree.C43_history"
   ],
   "note": "insert, emplace, try_emplace (as insert), hints, ranges, all erase, erase_if, extract, find, contains, count, bounds, equal_range, iteration both ways, writing mapped values, clear; sets, maps, multisets and multimaps, linear and binary search, plain and three-way comparison. Nodes and pointers between them are modelled; undefined behaviour and failing asserts are an outcome proved not to happen. Constructors, comparisons and allocation do not throw."
  },
  {
   "property": "C44",
   "status": "proved",
   "theorems": [
    "Gtl.Props.Btree.C44_sorted_balanced",
    "Gtl.Props.Btree.C44_depth"
   ],
   "note": "The fill bound that the code keeps is between 1 and kNodeValues values per node (it does not keep half full nodes), which gives a depth logarithmic in the size."
  },
  {
   "property": "C45",
   "status": "partial",
   "theorems": [
    "Gtl.Props.Vector.C45_effect_partial",
    "Gtl.Props.Vector.C45_ends_partial",
    "Gtl.Props.Vector.C45_program_partial",
    "Gtl.Props.Vector.C45_size_le_capacity",
    "Gtl.Props.Vector.C45_emplace_alias_false",
    "Gtl.Props.Vector.C45_overflow_false",
    "Gtl.Props.Vector.C45_memset_false",
    "Gtl.Props.Vector.C45_shrink_false"
   ],
   "note": "All operations of any number of vectors, all histories, aliased arguments included. Missing, and refuted with witnesses (the _false theorems): emplace of an own element within the capacity, n*sizeof(T) overflowing size_t, types whose zero bytes are not the value-initialised object, shrink_to_fit of types that can neither be copied nor moved without exceptions."
  },
  {
   "property": "C46",
   "status": "partial",
   "theorems": [
    "Gtl.Props.Utils.C46_slice",
    "Gtl.Props.Utils.C46_slice_exact_partial",
    "Gtl.Props.Utils.C46_negative",
    "Gtl.Props.Utils.C46_undefined",
    "Gtl.Props.Utils.C46_stride_refuted",
    "Gtl.Props.Utils.C46_python_refuted",
    "Gtl.Props.Utils.C46_negative_refuted",
    "Gtl.Props.Utils.C46_cat",
    "Gtl.Props.Utils.C46_map"
   ],
   "note": "What slice does is proved for all arguments: C46_slice (positive strides), C46_negative (negative strides: empty or std::length_error), C46_undefined (indices outside the vector, stride zero). The expected elements are returned when the stride divides last-first. Refuted: other strides lose the last element; negative indices are one off from Python (-1 is the end); negative strides give nothing."
  },
  {
   "property": "C47",
   "status": "partial",
   "theorems": [
    "Gtl.Props.Utils.C47_any_middle",
    "Gtl.Props.Utils.C47_integers_partial",
    "Gtl.Props.Utils.C47_signed_refuted",
    "Gtl.Props.Utils.C47_doubles_partial",
    "Gtl.Props.Utils.C47_negative_double_refuted"
   ],
   "note": "full for unsigned integers and integers smaller than int; for signed integers when r-l does not overflow, otherwise refuted (undefined behaviour); for doubles when l >= 0, otherwise refuted (looking for 0.5 between -1.0 and 1.0 never ends). A double is modelled by its bits with the IEEE value"
  },
  {
   "property": "C48",
   "status": "partial",
   "theorems": [
    "Gtl.Props.HashBits.C48_equal_keys",
    "Gtl.Props.HashBits.C48_integers_lossless",
    "Gtl.Props.HashBits.C48_doubles_lossless",
    "Gtl.Props.HashBits.C48_tuple_of_hashes",
    "Gtl.Props.HashBits.C48_pair_of_hashes",
    "Gtl.Props.HashBits.C48_combine_of_hashes",
    "Gtl.Props.HashBits.C48_combine_lossless",
    "Gtl.Props.HashBits.C48_combine4_lossless",
    "Gtl.Props.HashBits.C48_one_element",
    "Gtl.Props.HashBits.C48_mixer_lossless",
    "Gtl.Props.HashBits.C48_umul128",
    "Gtl.Props.HashBits.C48_mixers_refuted"
   ],
   "note": "all of it for keys, combiners and the portable mixer; refuted for the two other mixers (multiplication to 128 bits, and the one for 32 bits), which map different inputs to the same value. Types with their own hash_value or std::hash are represented by an arbitrary function of the value; size_t of 64 bits except for the 32-bit combiner and mixer"
  },
  {
   "property": "C49",
   "status": "partial",
   "theorems": [
    "Gtl.Props.HashBits.C49_leading64",
    "Gtl.Props.HashBits.C49_leading32",
    "Gtl.Props.HashBits.C49_trailing64",
    "Gtl.Props.HashBits.C49_trailing32",
    "Gtl.Props.HashBits.C49_swap",
    "Gtl.Props.HashBits.C49_swap_swap",
    "Gtl.Props.HashBits.C49_store",
    "Gtl.Props.HashBits.C49_load_store",
    "Gtl.Props.HashBits.C49_network",
    "Gtl.Props.HashBits.C49_apple_refuted"
   ],
   "note": "all of it for the portable code; refuted for the variants of gbswap_16 and gbswap_64 selected on Apple systems with compilers other than GCC and Clang, which call each other's system function. Compiler built-ins and intrinsics are not modelled"
  },
  {
   "property": "C50",
   "status": "proved",
   "theorems": [
    "Gtl.Props.Utils.C50_guard",
    "Gtl.Props.Utils.C50_guard_off",
    "Gtl.Props.Utils.C50_guard_dismissed",
    "Gtl.Props.Utils.C50_guard_not_dismissed",
    "Gtl.Props.Utils.C50_lifo",
    "Gtl.Props.Utils.C50_set_value",
    "Gtl.Props.Utils.C50_set_value_off",
    "Gtl.Props.Utils.C50_set_value_dismissed",
    "Gtl.Props.Utils.C50_set_unset",
    "Gtl.Props.Utils.C50_alias_refuted",
    "Gtl.Props.Utils.C50_replace",
    "Gtl.Props.Utils.C50_change"
   ],
   "note": "programs: sequences, branches on the state, nested and catching blocks, exceptions, dismissal by name; functions run by destructors do not throw. C50_alias_refuted records that scoped_set_value(v, v) and replace(v, v) lose the value"
  },
  {
   "property": "C51",
   "status": "proved",
   "theorems": [
    "Gtl.Props.Utils.C51_moments",
    "Gtl.Props.Utils.C51_touch_newest",
    "Gtl.Props.Utils.C51_merge",
    "Gtl.Props.Utils.C51_number_refuted"
   ],
   "note": "histories of fewer than 2^64 operations of one thread (the clock is a plain 64-bit integer) without the constructor from a number, for which C51_number_refuted shows that the order is lost"
  },
  {
   "property": "C52",
   "status": "partial",
   "theorems": [
    "Gtl.Props.Bits.C52_other_vector",
    "Gtl.Props.Bits.C52_same_vector_partial",
    "Gtl.Props.Bits.C52_overlap_refuted"
   ],
   "note": "Holds unless both views are in one vector and the destination starts inside the source; then bits already written are read again (C52_overlap_refuted)."
  },
  {
   "property": "C53",
   "status": "partial",
   "theorems": [
    "Gtl.Props.Bits.C53_new",
    "Gtl.Props.Bits.C53_vector",
    "Gtl.Props.Bits.C53_view_word_partial",
    "Gtl.Props.Bits.C53_view_word_refuted",
    "Gtl.Props.Bits.C53_view_words_partial"
   ],
   "note": "Vectors in full. A view that crosses a slot boundary shifts by a negative count (C53_view_word_refuted)."
  },
  {
   "property": "C54",
   "status": "proved",
   "theorems": [
    "Gtl.Props.Bits.C54_to_string",
    "Gtl.Props.Bits.C54_to_ullong",
    "Gtl.Props.Bits.C54_hex"
   ],
   "note": "All vectors and views."
  },
  {
   "property": "C55",
   "status": "partial",
   "theorems": [
    "Gtl.Props.Bits.C55_history_partial"
   ],
   "note": "All histories except the calls that the refuted theorems of C32, C37, C38, C52 and C53 are about."
  },
  {
   "property": "C56",
   "status": "partial",
   "theorems": [
    "Gtl.Props.Memo.C56_refuted",
    "Gtl.Props.Memo.C56_flat_partial"
   ],
   "note": "refuted: the function runs inside lazy_emplace_l after a slot was chosen, and the recursive call fills the same slot. Proved for functions that do not call the memoized function. With a real mutex the recursive call moreover locks a mutex the thread may already hold."
  },
  {
   "property": "C57",
   "status": "proved",
   "theorems": [
    "Gtl.Props.Vector.C57_exception_safety",
    "Gtl.Props.Vector.C57_at"
   ],
   "note": "Under the same rules for callers (Fair) as C45_effect_partial."
  },
  {
   "property": "C58",
   "status": "proved",
   "theorems": [
    "Gtl.Props.Vector.C58_memory_owned",
    "Gtl.Props.Vector.C58_no_leak",
    "Gtl.Props.Vector.C45_effect_partial"
   ],
   "note": "Undefined behaviour (construction over an object, destruction of nothing, access outside a buffer, freeing a block with objects in it) is an outcome of the model that C45_effect_partial excludes; under the same rules for callers (Fair)."
  },
  {
   "property": "C59",
   "status": "proved",
   "theorems": [
    "Gtl.Props.Vector.C59_no_reallocation",
    "Gtl.Props.Vector.C59_others",
    "Gtl.Props.Vector.C59_reserve",
    "Gtl.Props.Vector.C59_growth",
    "Gtl.Props.VecHandover.C59_shrink"
   ],
   "note": ""
  },
  {
   "property": "C60",
   "status": "proved",
   "theorems": [
    "Gtl.Props.Btree.C60_containers",
    "Gtl.Props.Btree.C60_merge",
    "Gtl.Props.Btree.C60_merge_perm"
   ],
   "note": "Merging a container into itself is left out (it empties multisets). Allocators are equal."
  },
  {
   "property": "C61",
   "status": "proved",
   "theorems": [
    "Gtl.Props.Btree.C61_nodes"
   ],
   "note": "Freed nodes are dead addresses in the model; following one is undefined behaviour, which C43 and C60 prove not to happen."
  },
  {
   "property": "C62",
   "status": "partial",
   "theorems": [
    "Gtl.Props.Btree.C62_own_element_partial",
    "Gtl.Props.Btree.C62_own_element_refuted",
    "Gtl.Props.Btree.C62_own_element_hint_refuted"
   ],
   "note": "Proved for containers without duplicates. False for multisets and multimaps: s.insert(*s.begin()) reads the element after the leaf that held it was freed."
  },
  {
   "property": "C63",
   "status": "proved",
   "theorems": [
    "Gtl.Props.Hash.C63_node_address",
    "Gtl.Props.Hash.C63_flat_position",
    "Gtl.Props.Hash.C63_flat_reserved"
   ],
   "note": "clear, resizing calls and range insertion (which reserves) are left out for flat containers; copying a node container allocates new nodes and is left out"
  },
  {
   "property": "C64",
   "status": "partial",
   "theorems": [
    "Gtl.Props.Hash.C64_present_partial",
    "Gtl.Props.Hash.C64_reserved_partial",
    "Gtl.Props.Hash.C64_grow_dangles",
    "Gtl.Props.Hash.C64_refuted"
   ],
   "note": "False: whenever the insertion enlarges the table, the argument is read after the old slots were freed (C64_grow_dangles); m.try_emplace(2, m.at(1)) on a map with one element does it. Proved when the key is present, and within reserved room."
  },
  {
   "property": "C65",
   "status": "partial",
   "theorems": [
    "Gtl.Props.Hash.C65_refuted",
    "Gtl.Props.Hash.C63_flat_reserved",
    "Gtl.Props.Hash.C08_reserve"
   ],
   "note": "False: reserve(28), 28 insertions, one removal and one insertion double the capacity (C65_refuted). Proved: nothing moves when nothing was erased (C08_reserve), or while the number of insertions made stays within the reserved room (C63_flat_reserved)."
  },
  {
   "property": "C66",
   "status": "partial",
   "theorems": [
    "Gtl.Props.Btree.C66_end_partial",
    "Gtl.Props.Btree.C66_present",
    "Gtl.Props.Btree.C66_inside_refuted",
    "Gtl.Props.Btree.C66_first_refuted",
    "Gtl.Props.Btree.C66_refuted",
    "Gtl.Props.Btree.C66_empty_leaf_refuted"
   ],
   "note": "False: unless the element goes behind the last element of a non-empty leaf, a raw slot remains among the elements (destruction is undefined) or a leaf without elements (reading it is undefined); in an empty container the node allocated first leaks. Proved for the remaining place. Moving elements is assumed not to throw; insertion without hint."
  },
  {
   "property": "C67",
   "status": "partial",
   "theorems": [
    "Gtl.Props.LruThreads.C67_linearizable",
    "Gtl.Props.LruThreads.C67_no_deadlock",
    "Gtl.Props.LruThreads.C67_as_one_thread",
    "Gtl.Props.LruThreads.C67_get_inserted",
    "Gtl.Props.LruThreads.C67_shared_refuted"
   ],
   "note": "Proved for mutexes without shared locks (the default std::mutex), and for shared mutexes if nobody calls get. False for a shared mutex: get moves a list node while it holds only a shared lock (C67_shared_refuted). size, reserve and set_cache_size take no locks and are excluded."
  },
  {
   "property": "C68",
   "status": "proved",
   "theorems": [
    "Gtl.Props.LruThreads.C68_linearizable",
    "Gtl.Props.LruThreads.C68_value",
    "Gtl.Props.LruThreads.C68_as_one_thread"
   ],
   "note": "Function without recursive use of the memoized object (with a mutex that would lock twice). set_cache_size, size, reserve take no locks and are excluded."
  },
  {
   "property": "C69",
   "status": "proved",
   "theorems": [
    "Gtl.Props.Share.C69_stepwise",
    "Gtl.Props.Share.C69_contents",
    "Gtl.Props.Share.C69_code"
   ],
   "note": "Two-container calls on different containers of one type (for the same container see C72). Callbacks do not call back into the container. With a shared mutex erase may answer wrongly as in C23; this is part of the specification of its step."
  },
  {
   "property": "C70",
   "status": "proved",
   "theorems": [
    "Gtl.Props.Share.C70_during"
   ],
   "note": "Instants are those of the explanation, whose observable part is the history of calls and answers."
  },
  {
   "property": "C71",
   "status": "proved",
   "theorems": [
    "Gtl.Props.Share.C71_conserved"
   ],
   "note": ""
  },
  {
   "property": "C72",
   "status": "partial",
   "theorems": [
    "Gtl.Props.Share.C72_without_swap_partial",
    "Gtl.Props.Share.C72_ordered_partial",
    "Gtl.Props.Share.C72_swap_refuted",
    "Gtl.Props.Share.C72_equal_refuted",
    "Gtl.Props.Share.C72_self_swap_refuted",
    "Gtl.Props.Share.C72_self_equal_refuted"
   ],
   "note": "False: swap takes its own lock and then that of its argument, so a.swap(b) in one thread and b.swap(a) in another can deadlock (C72_swap_refuted), with a shared mutex also a.swap(b) and b == a; a.swap(a), and a == a with a mutex without shared locks, wait for ever alone. Proved: no deadlock if nobody swaps, or if all swaps (and, with a shared mutex, comparisons) name the containers in one order. Shared locks are granted whenever nobody holds the mutex exclusively."
  },
  {
   "property": "C73",
   "status": "proved",
   "theorems": [
    "Gtl.Props.ParDump.C73_round_trip",
    "Gtl.Props.ParDump.C73_other_submaps"
   ],
   "note": "One thread; all sizes and capacities fit in size_t and N < 64. The rejected load has consumed the word with the number of submaps."
  },
  {
   "property": "C74",
   "status": "partial",
   "theorems": [
    "Gtl.Props.Layout.C74_layout",
    "Gtl.Props.Layout.C74_table_partial",
    "Gtl.Props.Layout.C74_overflow_refuted"
   ],
   "note": "Proved when the number of bytes is less than 2^64. The code does not check it: refuted for slots of 7 bytes and a bucket count of 2^61-1, where 9 bytes are allocated for 2^61+16 control bytes."
  },
  {
   "property": "C75",
   "status": "proved",
   "theorems": [
    "Gtl.Props.Layout.C75_node_values",
    "Gtl.Props.Layout.C75_nodes",
    "Gtl.Props.Layout.C75_counters"
   ],
   "note": "Slots of less than 4 GB; pointers of 8 bytes. The first theorem discharges the hypothesis 3 <= K of the B-tree theorems. The position stored in a root is not read by the code and not covered."
  },
  {
   "property": "C76",
   "status": "partial",
   "theorems": [
    "Gtl.Props.Btree.C76_history_partial",
    "Gtl.Props.Btree.C76_enough",
    "Gtl.Props.Btree.C76_copy",
    "Gtl.Props.Btree.C76_assign",
    "Gtl.Props.Btree.C76_leak_refuted",
    "Gtl.Props.Btree.C76_begin_refuted"
   ],
   "note": "Proved for callers that take no elements out (erase, extract, erase_if) between an insertion that failed after having allocated and the next clear(). Refuted otherwise: a failed split leaves an inner node with one child and no values, on which erasing relies on siblings that are not there. Then nodes are leaked, or the first leaf is empty and *begin() is undefined."
  },
  {
   "property": "C77",
   "status": "partial",
   "theorems": [
    "Gtl.Props.HashAlloc.C77_history_partial",
    "Gtl.Props.HashAlloc.C77_same",
    "Gtl.Props.HashAlloc.C77_never",
    "Gtl.Props.HashAlloc.C77_enough",
    "Gtl.Props.HashAlloc.C77_temporary",
    "Gtl.Props.HashAlloc.C77_temporary_refuted"
   ],
   "note": "Proved for all calls but one: emplace(args...) from whose arguments the key cannot be read builds the element in raw storage on the stack first, and when the table then cannot grow nobody destroys that element (refuted; proved when memory suffices). Containers are numbered; the insertion of a node handle leaves the element in the handle."
  },
  {
   "property": "C78",
   "status": "partial",
   "theorems": [
    "Gtl.Props.SoaFail.C78_throw_partial",
    "Gtl.Props.SoaFail.C78_reserve_sort",
    "Gtl.Props.SoaFail.C78_repair_partial",
    "Gtl.Props.SoaFail.C78_mixed_refuted"
   ],
   "note": "The first sentence is true only when the first column throws (or in reserve and sorting): otherwise size() counts a row whose reading is undefined, proved for every table, and after one more insertion the table shows a row that was never inserted (refuted). The rows of before stay readable. The second sentence is proved for all histories that do not sort a table without rows (C39_empty_refuted). Assumed of std::vector: push_back and resize change nothing when they throw."
  },
  {
   "property": "C79",
   "status": "partial",
   "theorems": [
    "Gtl.Props.Bits.C79_resize_partial",
    "Gtl.Props.Bits.C79_copy_partial",
    "Gtl.Props.Bits.C79_only",
    "Gtl.Props.Bits.C79_repair",
    "Gtl.Props.Bits.C79_repair_copy",
    "Gtl.Props.Bits.C79_refuted"
   ],
   "note": "Not true of the code: size() is already the new one and reading the last bit is undefined, proved for every vector. Proved: the bits of before stay readable, and resize to the size of before asks for no memory and gives exactly the vector of before."
  },
  {
   "property": "C80",
   "status": "proved",
   "theorems": [
    "Gtl.Props.Handles.C80_history",
    "Gtl.Props.Handles.C80_owner",
    "Gtl.Props.Handles.C80_rekey",
    "Gtl.Props.Handles.C80_self_move"
   ],
   "note": "std::swap is modelled by the three moves the standard prescribes."
  },
  {
   "property": "C81",
   "status": "partial",
   "theorems": [
    "Gtl.Props.HashThrow.C81_history_partial",
    "Gtl.Props.HashThrow.C81_later_partial",
    "Gtl.Props.HashThrow.C81_hang_refuted",
    "Gtl.Props.HashThrow.C81_refuted"
   ],
   "note": "False for the library in general. Proved: if nothing is erased, or with at most seven exceptions between calls of clear(), all calls but size() answer as if the throwing calls had not been made, size() is too large by the number of exceptions since clear(), and clear() makes the container as good as new. Refuted: with erasures and 30 exceptions the count exceeds the growth limit of the doubled table, growth_left wraps around, the table fills up completely and the search for an absent key never ends."
  },
  {
   "property": "C82",
   "status": "partial",
   "theorems": [
    "Gtl.Props.MemoThrow.C82_recursive",
    "Gtl.Props.MemoThrow.C82_recursive_ends",
    "Gtl.Props.MemoThrow.C82_mutex_partial",
    "Gtl.Props.MemoThrow.C82_size_refuted",
    "Gtl.Props.MemoThrow.C82_lru_partial",
    "Gtl.Props.MemoThrow.C82_hang_refuted"
   ],
   "note": "Holds in full for functions that are recursive or memoized without a mutex. With a mutex and no recursion all answers but size() are right, and size() is too large by the number of exceptions. With a size limit the same is proved for at most seven exceptions; with 40 exceptions the table under the cache loses all its empty slots and the next call at a new argument never ends (refuted for all three group implementations)."
  },
  {
   "property": "C83",
   "status": "proved",
   "theorems": [
    "Gtl.Props.HashCost.C83_history_cost",
    "Gtl.Props.HashCost.C83_single_call_refuted"
   ],
   "note": "Amortised bounds for every history, with the exact counters of a concrete history that rehashes in both ways beside it; the corresponding bound for single calls is refuted for every N. The construction of the new element itself, key comparisons and probe lengths are not counted."
  },
  {
   "property": "C84",
   "status": "proved",
   "theorems": [
    "Gtl.Props.VecCost.C84_growth_amortised",
    "Gtl.Props.VecCost.C84_push_back",
    "Gtl.Props.VecCost.C84_resize_quadratic"
   ],
   "note": "Amortised bound for every history of gradual operations from every reachable state; the quadratic cost of growing with resize is proved for every k. Not counted: elements shifted inside a buffer by insert and erase, and operations that end with an exception. Insertion of ranges that can be read only once is not covered."
  },
  {
   "property": "C85",
   "status": "proved",
   "theorems": [
    "Gtl.Props.BtreeCost.C85_comparisons",
    "Gtl.Props.BtreeCost.C85_call",
    "Gtl.Props.BtreeCost.C85_sorted_range"
   ],
   "note": "For every history from the empty container. A call of a three-way comparison counts as one. Not counted: comparisons of copies (none in the model), of merge and of the operators == and < (which compare elements, not keys)."
  },
  {
   "property": "C86",
   "status": "partial",
   "theorems": [
    "Gtl.Props.Bits.C86_history_partial",
    "Gtl.Props.Bits.C86_target",
    "Gtl.Props.Bits.C86_resize",
    "Gtl.Props.Bits.C86_moved_from_refuted"
   ],
   "note": "The code refutes the last part: for every non-empty vector, the source of a move construction keeps its size() but has no storage, so operator[], set, flip, any, every, count, find_first, ==, to_ullong and the hash have undefined behaviour (C86_moved_from_refuted). Proved for all histories in which a moved-from vector is only assigned to, copied, swapped or moved before its bits are used; resize after a move construction acts as on a new vector (C86_resize)."
  },
  {
   "property": "C87",
   "status": "partial",
   "theorems": [
    "Gtl.Props.HashFnThrow.C87_history_partial",
    "Gtl.Props.HashFnThrow.C87_later_partial",
    "Gtl.Props.HashFnThrow.C87_first",
    "Gtl.Props.HashFnThrow.C87_lookup",
    "Gtl.Props.HashFnThrow.C87_reserved",
    "Gtl.Props.HashFnThrow.C87_copy",
    "Gtl.Props.HashFnThrow.C87_rehash_refuted",
    "Gtl.Props.HashFnThrow.C87_insert_refuted",
    "Gtl.Props.HashFnThrow.C87_refuted"
   ],
   "note": "The code refutes that nothing is lost: an exception while the table grows or is rehashed in place loses the elements not yet moved, and size() still counts them (C87_rehash_refuted for every container, C87_insert_refuted). Proved for all histories with any number of exceptions: no undefined behaviour, no hang, contents are a part of what they should be, size() is off by exactly the lost elements (C87_history_partial); calls that do not rearrange lose nothing (C87_lookup), nor does an exception in the hash of the key (C87_first), nor insertions after reserve on a container without erasures (C87_reserved); copy construction cleans up (C87_copy)."
  },
  {
   "property": "C88",
   "status": "partial",
   "theorems": [
    "Gtl.Props.BtreeCmpThrow.C88_history_partial",
    "Gtl.Props.BtreeCmpThrow.C88_unchanged",
    "Gtl.Props.BtreeCmpThrow.C88_when",
    "Gtl.Props.BtreeCmpThrow.C88_merge_keeps",
    "Gtl.Props.BtreeCmpThrow.C88_merge_multi",
    "Gtl.Props.BtreeCmpThrow.C88_merge_multi_refuted",
    "Gtl.Props.BtreeCmpThrow.C88_order_refuted"
   ],
   "note": "Proved for all histories: no undefined behaviour, calls on one container leave everything exactly as it was, ranges and merges stop at an element (C88_history_partial, C88_unchanged), and which calls throw (C88_when). A merge of containers without duplicates that throws loses nothing and leaves nothing twice (C88_merge_keeps). The code refutes this for merge of containers with duplicates, which moves all elements and clears the source only at the end: an exception leaves the first elements in both containers (C88_merge_multi_refuted), or, if moving changes keys, a source out of order that denies holding what it holds (C88_order_refuted); C88_merge_multi says what is left in every case. C88_history_partial excludes only merges of containers with duplicates whose moved elements lose their keys."
  },
  {
   "property": "C89",
   "status": "partial",
   "theorems": [
    "Gtl.Props.AllocOwner.C89_vector",
    "Gtl.Props.AllocOwner.C89_no_leak",
    "Gtl.Props.AllocOwner.C89_hash_partial",
    "Gtl.Props.AllocOwner.C89_hash_refuted",
    "Gtl.Props.AllocOwner.C89_btree_memory",
    "Gtl.Props.AllocOwner.C89_btree_partial",
    "Gtl.Props.AllocOwner.C89_btree_refuted",
    "Gtl.Props.AllocOwner.C89_parallel_memory",
    "Gtl.Props.AllocOwner.C89_parallel_partial",
    "Gtl.Props.AllocOwner.C89_parallel_refuted",
    "Gtl.Props.AllocOwner.C89_parallel_memory_refuted"
   ],
   "note": "Proved in full for gtl::vector (C89_vector). The code refutes it for the others. Hash containers assign by a temporary and swap: if the traits propagate on assignment but not on swap, memory goes to the wrong allocator (C89_hash_refuted); for all other traits it holds (C89_hash_partial). B-tree containers never give memory to a wrong allocator (C89_btree_memory), but move assignment consults the trait of copy assignment and copies ignore select_on_container_copy_construction (C89_btree_refuted); otherwise it holds (C89_btree_partial). Parallel containers made by moving get a default allocator unless move assignment propagates (C89_parallel_refuted) and wrong frees if swap does not (C89_parallel_memory_refuted); C89_parallel_memory says what they do, C89_parallel_partial is the case in which it is right. No self-assignment in these histories."
  },
  {
   "property": "C90",
   "status": "proved",
   "theorems": [
    "Gtl.Props.NullCtrl.C90_history",
    "Gtl.Props.NullCtrl.C90_same",
    "Gtl.Props.NullCtrl.C90_untested"
   ],
   "note": "In full: all histories over the calls of C01. C90_untested shows that the untested functions are undefined on such a container, so the tests are what makes it work. Exceptions, allocation failure and unequal allocators are covered by other properties, with the default allocator pointer."
  },
  {
   "property": "C91",
   "status": "partial",
   "theorems": [
    "Gtl.Props.CallbackThrow.C91_linearizable",
    "Gtl.Props.CallbackThrow.C91_contents",
    "Gtl.Props.CallbackThrow.C91_released",
    "Gtl.Props.CallbackThrow.C91_no_deadlock",
    "Gtl.Props.CallbackThrow.C91_shared_partial",
    "Gtl.Props.CallbackThrow.C91_construct_refuted",
    "Gtl.Props.CallbackThrow.C91_code"
   ],
   "note": "Everything but the last sentence is proved in full; C91_construct_refuted shows that a throwing constructor callback makes size() one too large. With mutexes that have shared locks the answer of an erase whose key has gone is the one of C23 (C91_shared_partial). Callbacks of for_each and traversals that throw: C110."
  },
  {
   "property": "C92",
   "status": "proved",
   "theorems": [
    "Gtl.Props.IntrusiveOrder.C92_use_before_delete",
    "Gtl.Props.IntrusiveOrder.C92_unique",
    "Gtl.Props.IntrusiveOrder.C92_alive",
    "Gtl.Props.IntrusiveOrder.C92_needed",
    "Gtl.Props.IntrusiveOrder.C92_orders"
   ],
   "note": "In full. Executions are listed in one order for all counters, which memory_order_seq_cst guarantees; handing a pointer to another thread is assumed to synchronise with it."
  },
  {
   "property": "C93",
   "status": "partial",
   "theorems": [
    "Gtl.Props.Race.C93_parallel",
    "Gtl.Props.Race.C93_throwing",
    "Gtl.Props.Race.C93_whole",
    "Gtl.Props.Race.C93_lru_partial",
    "Gtl.Props.Race.C93_lru_shared_refuted",
    "Gtl.Props.Race.C93_null",
    "Gtl.Props.Race.C93_records",
    "Gtl.Props.Race.C93_records_whole"
   ],
   "note": "Proved for the parallel containers, in full, and for lru_cache with a mutex without shared locks (or without get); refuted for lru_cache::get with a mutex that has shared locks, a defect of the code."
  },
  {
   "property": "C94",
   "status": "partial",
   "theorems": [
    "Gtl.Props.Functors.C94_history",
    "Gtl.Props.Functors.C94_plain_partial",
    "Gtl.Props.Functors.C94_usable",
    "Gtl.Props.Functors.C94_moved_from",
    "Gtl.Props.Functors.C94_moved_from_refuted",
    "Gtl.Props.Functors.C94_parallel_partial",
    "Gtl.Props.Functors.C94_parallel_merge_refuted",
    "Gtl.Props.Functors.C94_parallel_equal_refuted"
   ],
   "note": "Proved for all histories with function objects that a move leaves as they were (C94_history says what happens for all others); refuted, as a defect of the code, for moved-from containers with a function object such as std::function, and for merge and == between parallel containers with different functions."
  },
  {
   "property": "C95",
   "status": "partial",
   "theorems": [
    "Gtl.Props.BtreeOrders.C95_history",
    "Gtl.Props.BtreeOrders.C95_kept_partial",
    "Gtl.Props.BtreeOrders.C95_equal",
    "Gtl.Props.BtreeOrders.C95_move_refuted",
    "Gtl.Props.BtreeOrders.C95_take_refuted",
    "Gtl.Props.BtreeOrders.C95_taken_undefined"
   ],
   "note": "Everything but the last sentence is proved for all histories (C95_history says what moves leave). The last sentence is refuted, as a defect of the code: after a move assignment the source has the comparison of the destination, and after a move construction the remains of its own, with which inserting twice can be undefined. It is proved when move assignments are between containers with the same comparison and moving a comparison object copies it. Allocators are equal."
  },
  {
   "property": "C96",
   "status": "proved",
   "theorems": [
    "Gtl.Props.BtreeStats.C96_verify",
    "Gtl.Props.BtreeStats.C96_stats",
    "Gtl.Props.BtreeStats.C96_fullness",
    "Gtl.Props.BtreeStats.C96_overhead",
    "Gtl.Props.BtreeStats.C96_alloc_refuted",
    "Gtl.Props.BtreeStats.C96_case"
   ],
   "note": "The results of fullness() and overhead() are fractions, their rounding to double is not modelled, and the products in bytes_used() do not wrap. C96_alloc_refuted shows that the condition on exceptions is needed (the failed split of C76)."
  },
  {
   "property": "C97",
   "status": "proved",
   "theorems": [
    "Gtl.Props.Salt.C97_history",
    "Gtl.Props.Salt.C97_answers",
    "Gtl.Props.Salt.C97_order",
    "Gtl.Props.Salt.C97_bytes_move"
   ],
   "note": "C97_order shows two sequences of addresses with different orders of iteration; C97_bytes_move shows why dump and load are left out in this mode."
  },
  {
   "property": "C98",
   "status": "proved",
   "theorems": [
    "Gtl.Props.StringKeys.C98_less",
    "Gtl.Props.StringKeys.C98_greater",
    "Gtl.Props.StringKeys.C98_history",
    "Gtl.Props.StringKeys.C98_three_way",
    "Gtl.Props.StringKeys.C98_case"
   ],
   "note": "std::string_view::compare is modelled by its specification in the C++ standard."
  },
  {
   "property": "C99",
   "status": "partial",
   "theorems": [
    "Gtl.Props.Hash.C99_load",
    "Gtl.Props.Hash.C99_memory",
    "Gtl.Props.Hash.C99_memory_fresh",
    "Gtl.Props.Hash.C99_grow",
    "Gtl.Props.Hash.C99_grow_fresh",
    "Gtl.Props.Hash.C99_keep_partial",
    "Gtl.Props.Hash.C99_documented_refuted",
    "Gtl.Props.Hash.C99_range_refuted"
   ],
   "note": "Everything holds except the last sentence: inserting an empty random-access range into an empty container releases all buckets, also those just reserved (C99_range_refuted); C99_keep_partial excludes that call. The documented range of the load factor, 0.4375 to 0.875, is refuted by C99_documented_refuted. load_factor() itself returns a float; the theorems are about size() and bucket_count(), whose ratio it is."
  }
 ]
}
