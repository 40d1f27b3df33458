{"id": "C01", "title": "Hash map history equivalence", "statement": "For every history of insert / emplace / try_emplace / insert_or_assign / operator[] / erase(key) / find / contains / count / clear / reserve(n>0) / rehash(n>0) calls on a flat or node hash container that starts empty, each call returns what a finite map (at most one element per key class) would return, and the container's contents equal that finite map after every call.", "quantifier": "all key/value types, all hash functions, all equality functors that are equivalences compatible with the hash, all finite call histories", "why_tests_cant": "the state space (hash collisions x tombstones x rehash points) is infinite; a test samples a few histories and hash functions", "anchors": ["include/gtl/phmap.hpp: raw_hash_set::find, emplace_decomposable, erase, clear, rehash, reserve", "include/gtl/phmap.hpp: raw_hash_map::try_emplace_impl, insert_or_assign_impl"]}
{"id": "C02", "title": "Lookups terminate and never touch invalid memory", "statement": "In every state reachable through the public API (excluding rehash(0)/reserve(0), see C07), find/contains/insert/erase terminate, and read only allocated control bytes and constructed elements.", "quantifier": "all reachable container states, all keys present or absent, all hash functions including constant ones", "why_tests_cant": "non-termination and out-of-bounds reads appear only in specific full/tombstone layouts; tests cannot enumerate layouts", "anchors": ["include/gtl/phmap.hpp: raw_hash_set::find_impl, _find_key, find_first_non_full, prepare_insert, probe_seq"]}
{"id": "C03", "title": "Insertion never overwrites", "statement": "insert/emplace/try_emplace of a key already present leaves the stored element untouched and reports false; of an absent key adds exactly that element and reports true; insert_or_assign replaces the mapped value of a present key and keeps its stored key.", "quantifier": "all reachable states, all elements", "why_tests_cant": "needs every state and every collision pattern", "anchors": ["include/gtl/phmap.hpp: raw_hash_set::emplace_decomposable, raw_hash_map::insert_or_assign_impl, try_emplace_impl"]}
{"id": "C04", "title": "size() counts the elements", "statement": "size() equals the number of elements visited by iteration, equals inserted-minus-erased distinct keys; empty() iff size()==0; capacity() is 0 or 2^k-1 and size() never exceeds the maximum load (7/8 of capacity, all of it for tiny tables).", "quantifier": "all reachable states (excluding rehash(0)/reserve(0))", "why_tests_cant": "bookkeeping must stay right over unbounded histories with tombstone reuse and in-place rehash", "anchors": ["include/gtl/phmap.hpp: raw_hash_set::size, erase_meta_only, prepare_insert, CapacityToGrowth"]}
{"id": "C05", "title": "Iteration visits every element exactly once", "statement": "Walking begin()..end() with ++ yields each contained element exactly once, and nothing else, and terminates.", "quantifier": "all reachable states", "why_tests_cant": "depends on control-byte layout (clones, sentinel, tombstones) in every state", "anchors": ["include/gtl/phmap.hpp: raw_hash_set::begin, iterator::operator++, skip_empty_or_deleted"]}
{"id": "C06", "title": "Erase while iterating / erase_if", "statement": "erase(it) returns the iterator to the next element and removes just that element; the erase_if loop removes exactly the elements satisfying the predicate, keeps all others, visits each element once, and returns the number removed.", "quantifier": "all reachable states, all predicates", "why_tests_cant": "tombstone vs empty choice depends on neighbours; all layouts must be covered", "anchors": ["include/gtl/phmap.hpp: raw_hash_set::erase(iterator), erase_meta_only, priv::erase_if"]}
{"id": "C07", "title": "rehash and reserve keep the contents and leave a usable table", "statement": "After rehash(n) or reserve(n), for every n including 0, the container holds the same elements, further lookups terminate and further inserts work.", "quantifier": "all reachable states, all n", "why_tests_cant": "the failing case needs particular sizes (e.g. 15, 29..31, 57..63 elements) and n==0, then an absent-key lookup", "anchors": ["include/gtl/phmap.hpp: raw_hash_set::rehash, reserve, resize, NormalizeCapacity, CapacityToGrowth, reset_growth_left"]}
{"id": "C08", "title": "reserve(n) prevents reallocation", "statement": "After reserve(n) on a container without erased slots, inserting until the container holds n elements never reallocates (capacity unchanged).", "quantifier": "all n, all starting sizes, all keys and hash functions", "why_tests_cant": "arithmetic on every n and both group widths", "anchors": ["include/gtl/phmap.hpp: reserve, GrowthToLowerboundCapacity, NormalizeCapacity, CapacityToGrowth"]}
{"id": "C09", "title": "Tombstone clean-up preserves contents", "statement": "When an insert triggers the in-place clean-up of erased slots, no element is lost, duplicated or made unreachable, and the capacity does not change.", "quantifier": "all layouts of full/erased/empty slots, all hash functions", "why_tests_cant": "in-place permutation of slots; the orderings are exponential", "anchors": ["include/gtl/phmap.hpp: drop_deletes_without_resize, ConvertDeletedToEmptyAndFullToDeleted, rehash_and_grow_if_necessary"]}
{"id": "C10", "title": "clear empties and stays usable", "statement": "clear() removes every element; afterwards size()==0, no key is found, iteration is empty, and later operations behave as on a new container.", "quantifier": "all reachable states", "why_tests_cant": "clear has a size-dependent branch (keep or free the array) that must be right in all states", "anchors": ["include/gtl/phmap.hpp: raw_hash_set::clear, destroy_slots, reset_ctrl"]}
{"id": "C100", "title": "Sorting several structures of arrays in one thread", "statement": "sort_by_field keeps its working data in an object that all tables of a type sorted by the same function in a thread have in common. Nevertheless each table behaves as if it were alone: after any sequence of calls on any number of tables, with sorts of tables of different sizes, and sorts left by exceptions, in between, every table shows what the calls on it alone make of its rows.", "quantifier": "all numbers of tables, columns and rows, all column types, all comparison functions (strict weak orders), all histories, anything left in the working data by calls that threw", "why_tests_cant": "the working data depends on everything the thread has sorted before, of whatever size; tests sort one table in a fresh process.", "anchors": [{"file": "include/gtl/soa.hpp", "symbols": ["soa::sort_by_field", "sort_data", "reorder", "sort_by_reference_impl"]}, {"file": "include/gtl/bit_vector.hpp", "symbols": ["vec::resize", "vec::reset", "vec::set", "vec::operator[]"]}]}
{"id": "C101", "title": "Iterators of parallel hash containers: which calls invalidate them", "statement": "As the documentation of the parallel containers says: read-only operations and swap never invalidate iterators; insertions do so only if they trigger a rehash; erasing invalidates only iterators to the erased element. In particular a call for one key resizes at most one submap.", "quantifier": "all reachable parallel containers (any number of submaps, hash function and contents), all elements, all histories of calls, all pairs of containers", "why_tests_cant": "whether an iterator survives depends on which submap each later key falls into and how full that submap is; a test sees a few layouts only, and an iterator that silently goes on in another container looks valid.", "anchors": [{"file": "include/gtl/phmap.hpp", "symbols": ["parallel_hash_set::iterator", "skip_empty", "swap", "_erase", "find", "subidx"]}, {"file": "docs/phmap.md", "symbols": ["Iterator invalidation for the parallel hash containers"]}]}
{"id": "C102", "title": "reserve(n) of parallel hash containers", "statement": "After reserve(n), inserting elements until there are n does not resize the container and does not invalidate iterators.", "quantifier": "all numbers of submaps, hash functions and n, all histories of calls after the reservation", "why_tests_cant": "the claim is about every way the hash function can spread the elements over the submaps; tests insert consecutive integers with one hash function.", "anchors": [{"file": "include/gtl/phmap.hpp", "symbols": ["parallel_hash_set::reserve", "parallel_hash_set::rehash", "GrowthToLowerboundCapacity", "NormalizeCapacity", "CapacityToGrowth"]}]}
{"id": "C103", "title": "An insertion into an LRU cache that throws", "statement": "If an insertion into an LRU cache throws (copying a key or a value, or an allocation), the cache can be used on as if the insertion had not been made: get returns only values of insertions that did not throw, the cache keeps to its size, recently used keys are found, and nothing is undefined.", "quantifier": "all sizes, numbers of shards, hash functions, histories of calls, and all places in an insertion where user code may throw", "why_tests_cant": "which copy throws depends on the program and on the history before it (an eviction must be due); the effect appears only later, when the entry left behind reaches the end of the list.", "anchors": [{"file": "include/gtl/lru_cache.hpp", "symbols": ["lru_cache_impl::insert", "lru_cache_impl::get"]}, {"file": "include/gtl/phmap.hpp", "symbols": ["parallel_hash_set::lazy_emplace_l", "prepare_insert"]}]}
{"id": "C104", "title": "Parallel traversal with an execution policy", "statement": "for_each and for_each_m of the parallel containers with an execution policy may run the callback in several threads at once. Still the callback sees (or changes) every element exactly once if nobody else modifies the container; and if other threads do, it sees no key twice, only elements that were there at some time during the traversal, and all that were there all the time. It never deadlocks with other calls (but for those of swap).", "quantifier": "all numbers of worker threads and submaps, all ways of dealing out the submaps, all schedules, all concurrent calls of other threads, all contents and hash functions", "why_tests_cant": "which thread visits which submap when is up to the scheduler of the standard library; a test sees a few interleavings.", "anchors": [{"file": "include/gtl/phmap.hpp", "symbols": ["parallel_hash_set::for_each", "parallel_hash_set::for_each_m"]}]}
{"id": "C105", "title": "Copying and assigning reference counted objects", "statement": "Objects that derive from intrusive_ref_counter can be copied, moved and assigned like others. The copy is a new object with the same pointers as members and its own count: one for the pointer made to it, whatever the count of the original. Assignment changes the members and no count but those of the objects the members point to. Whatever the history, use_count() is the number of owners of the object, and an object is deleted exactly when its last owner goes. An assignment between objects with several pointers requires that both objects survive it.", "quantifier": "all graphs of objects with any number of pointers (cycles and pointers to oneself included), all histories of pointer operations, copies, moves and assignments of objects", "why_tests_cant": "whether an object is released in the middle of an assignment depends on the whole graph; a count copied by mistake shows only when the last owner goes.", "anchors": [{"file": "include/gtl/intrusive.hpp", "symbols": ["intrusive_ref_counter", "intrusive_ptr"]}]}
{"id": "C106", "title": "erase_if with a predicate that throws or has a memory", "statement": "erase_if(container, pred) asks the predicate about the elements in iteration order, each at most once, and erases at once those for which it returns true. This also holds for predicates that count, write down or otherwise remember what they saw. If the predicate throws, the elements erased before are gone, the element it threw for and all later ones stay, and the container works from then on as one with the elements that are left, in the same order. Otherwise the hash containers return the number of erased elements.", "quantifier": "all hash, parallel hash and B-tree containers in any reachable state, all predicates with any state, all points at which they throw, all later histories", "why_tests_cant": "the answer depends on the point at which the exception is thrown, on the shape of the table or tree at that moment (erasures in B-trees merge and rebalance nodes under the running iterator), and on everything done with the container afterwards.", "anchors": [{"file": "include/gtl/phmap.hpp", "symbols": ["erase_if"]}, {"file": "include/gtl/btree.hpp", "symbols": ["erase_if"]}]}
{"id": "C107", "title": "Lookups in B-tree containers with something that is not a key", "statement": "When the comparison of a btree_set, btree_map, btree_multiset or btree_multimap is transparent, a thing q that is not a key can be looked up, and it may match several different keys. Given that the comparisons with q split the elements, in their order, into those below, those that match and those above, lower_bound(q) and upper_bound(q) are the ends of the part that matches, equal_range(q) is that part, find(q) is a match or end(), contains(q) says whether there is one, count(q) is their number, and erase(q) removes all of them and returns their number.", "quantifier": "all comparisons that are strict weak orders, all q that split the elements, all node sizes and kinds of search, all containers after any history of calls", "why_tests_cant": "which element a search stops at depends on the shape of the tree, on the node size and on the kind of search; tests look up keys, of which at most one matches in a set.", "anchors": [{"file": "include/gtl/btree.hpp", "symbols": ["btree_container", "lower_bound", "upper_bound", "equal_range", "find", "contains", "count_unique", "count_multi", "erase_unique", "erase_multi", "binary_search_impl", "internal_locate"]}, {"file": "include/gtl/gtl_base.hpp", "symbols": ["KeyArg"]}]}
{"id": "C108", "title": "Lookups in hash containers with something that is not a key", "statement": "When hash and equality of a hash container or a parallel hash container are transparent, a thing q that is not a key can be looked up, and it may be equal to several keys. Given that q has the hash of every key it is equal to, find(q) is an element that matches or end(), contains(q) says whether there is one, count(q) is their number, equal_range(q) holds all of them, erase(q) removes all of them and returns their number, extract(q) takes one out. If q stands for a key (same hash, equal to the same keys) every call with q, also try_emplace and operator[], does what the call with the key does. equal_range(k) for a key k holds the element with that key and nothing else.", "quantifier": "all hash and equality functions, all q that have the hash of what they are equal to, all element types, group implementations, numbers of submaps and kinds of mutex, all containers after any history of calls (for parallel containers: calls of one thread)", "why_tests_cant": "which elements are compared with q depends on the hash, the probe sequence, the seven bits kept per element and the submap; tests look up keys and strings, of which at most one matches.", "anchors": [{"file": "include/gtl/phmap.hpp", "symbols": ["raw_hash_set", "key_arg", "find", "find_impl", "contains", "count", "equal_range", "erase", "extract", "EqualElement", "parallel_hash_set", "erase_if_impl", "contains_impl"]}]}
{"id": "C109", "title": "Handing the buffer of a vector to the user and back", "statement": "relinquish(v) hands the buffer of v to the user, attach(v, p, size, capacity) and the constructor from a buffer give a buffer to a vector. In programs that mix these with all other operations, give each buffer on at most once and with its own size and capacity, and attach only to vectors without a buffer: no call has undefined behaviour; the elements stay where they are, none is constructed, copied, moved or destroyed and no memory is allocated; the vector has then exactly the elements, address and capacity of the buffer, and a vector whose buffer was taken is as a new one; taking and giving back changes nothing at all; when all vectors and buffers are gone all memory has been given back. compactResize(&v, n) leaves the first n elements, filled up with value-initialised ones, and capacity n, or throws and has changed nothing.", "quantifier": "all element types, all programs of any length with any number of vectors and held buffers, all places where constructors and allocations throw", "why_tests_cant": "whether ownership is kept depends on the whole program around these calls; tests take one buffer of one vector.", "anchors": [{"file": "include/gtl/vector.hpp", "symbols": ["relinquish", "attach", "compactResize", "vector", "shrink_to_fit", "Impl"]}]}
{"id": "C11", "title": "Copy, move, swap", "statement": "A copy has the same elements and later changes to either do not affect the other; a move transfers all elements and leaves the source empty and usable; swap exchanges contents.", "quantifier": "all reachable states of both containers", "why_tests_cant": "copy re-inserts without duplicate checks: correct only by an invariant over all states", "anchors": ["include/gtl/phmap.hpp: raw_hash_set copy/move constructors, swap, operator="]}
{"id": "C110", "title": "Traversals whose callbacks throw while other threads use the containers", "statement": "Threads call for_each, for_each_m, with_submap and with_submap_m with callbacks that may throw, on containers that other threads use and swap, merge or clear at the same time. When the callback throws, nothing more is shown to it; what it assigned to the elements it was shown, the last one included, stays, and no other element is changed by the call. No element is shown twice, only elements that are there at some instant of the call are shown, and if the callback does not throw every element that is there all the time is shown. A with_submap_m callback that throws leaves exactly what it did before. Afterwards no lock is held, nobody waits because of the exception, sizes and contents agree and the containers behave as any other. The callback decides about each element from all it has been shown so far if its state is outside of it; a function object that keeps its state in itself starts again in every submap.", "quantifier": "all tables, numbers of submaps, numbers of containers and threads, schedules, sequences of calls, and all callbacks, whatever their decisions depend on", "why_tests_cant": "the exception can come at any element, in any submap and between any steps of the other threads.", "anchors": [{"file": "include/gtl/phmap.hpp", "symbols": ["for_each", "for_each_m", "with_submap", "with_submap_m", "UniqueLock", "SharedLock"]}]}
{"id": "C111", "title": "Intrusive pointers to derived classes become pointers to base classes", "statement": "Programs copy and move intrusive pointers into pointers of other types, to a base class of the object or to the class with const, together with all other operations of intrusive pointers. Nothing is undefined, no object is deleted while it has owners, every object is deleted once when its last owner goes, and use_count() is the number of owners. A move leaves the source empty and does not change the counts, whatever the classes are.", "quantifier": "all programs of any length with any number of pointers and objects, all classes", "why_tests_cant": "which constructor is chosen depends on the classes of the user, and who owns what depends on the whole program.", "anchors": [{"file": "include/gtl/intrusive.hpp", "symbols": ["intrusive_ptr", "operator=", "is_convertible_v"]}]}
{"id": "C112", "title": "Running out of memory while other threads use a parallel container", "statement": "Threads use a parallel container at the same time, and any call may run out of memory; callbacks may throw too. A call throws std::bad_alloc only if it has to add an element whose key is absent at that instant and no allocation succeeds; it then leaves the container exactly as it was. All other calls have their usual effect, in one order that agrees with who called before whom. Afterwards no lock is held, nobody waits because of the exception, sizes and contents agree and the container behaves as any other. One allocation is enough for any call.", "quantifier": "all tables, numbers of submaps and threads, schedules, sequences of calls, ways of cutting the code into atomic actions, callbacks, and all numbers of allocations that succeed in each call", "why_tests_cant": "memory can run out in any call and between any steps of other threads, and the lock has to be released on that path.", "anchors": [{"file": "include/gtl/phmap.hpp", "symbols": ["emplace_decomposable_with_hash", "find_or_prepare_insert_with_hash", "prepare_insert", "rehash_and_grow_if_necessary", "initialize_slots", "lazy_emplace_l", "try_emplace_l", "UniqueLock"]}]}
{"id": "C113", "title": "Parallel containers that run out of memory", "statement": "A program uses parallel containers from one thread and any allocation may throw std::bad_alloc; the program goes on after each exception. An insertion of one element throws only if the key is absent, and leaves the container as it was, down to positions and references. A range insertion that throws has inserted a prefix of the range, and the next element is absent. reserve and rehash that throw leave the elements as they were, whichever submaps they got to. A constructor that throws has no effect. A merge that throws has moved some of the elements the destination lacks and lost none. A copy assignment that throws leaves for every key either what the destination had or what the source has. Every other call never throws. Afterwards every container behaves exactly like its abstract counterpart, and with enough memory every call succeeds.", "quantifier": "all element types, hashes, numbers of submaps, mutex types, histories of calls on any number of containers, and all numbers of allocations that succeed in each call", "why_tests_cant": "a call on all submaps can run out of memory in any of them, and the failure can come anywhere in a history; what matters is every later use of the container.", "anchors": [{"file": "include/gtl/phmap.hpp", "symbols": ["parallel_hash_set", "operator=", "insert", "merge", "rehash", "reserve", "lazy_emplace_l", "try_emplace_l", "initialize_slots"]}]}
{"id": "C114", "title": "Several values and containers in one archive, on a device that may be full", "statement": "Any sequence of trivially copyable values, hash containers and parallel hash containers that is saved to one archive and loaded in the same order comes back, whatever the target variables held before: the same bytes, the same elements in the same order, the same behaviour afterwards, and nothing is left over. If the device fills up at some byte, the file is a prefix of what a larger device would hold, and everything that was saved completely is still restored. An archive of the user that appends what it is given receives exactly these bytes. When every call answered true, the file is complete.", "quantifier": "all element types, hashes, histories of the saved and the overwritten containers, all sequences of items, all amounts of room on the device, all user archives", "why_tests_cant": "the number and kind of items, the histories of the containers and the byte at which the device is full are unbounded; tests save one container to a disk with room.", "anchors": [{"file": "include/gtl/phmap_dump.hpp", "symbols": ["phmap_dump", "phmap_load", "BinaryOutputArchive", "BinaryInputArchive", "saveBinary", "loadBinary"]}]}
{"id": "C115", "title": "Callbacks that call back into the parallel container", "statement": "A callback passed to modify_if, if_contains, erase_if, lazy_emplace_l or try_emplace_l of a parallel container may itself call the container, and its callbacks may do so again, to any depth, as long as no call gets in the way of the calls around it: with a real mutex it must not lock a submap whose lock is held; the callback of erase_if may only look at the submap of its element; the callback of lazy_emplace_l that creates an element must leave the submap of that element alone. Then every call gives the answer of the sequential map, the calls of a callback taking place between the lookup and the end of the call that got it, and the container afterwards is what the map is. Without mutexes, the callbacks of modify_if, if_contains and, for elements that are there, of lazy_emplace_l and try_emplace_l may make any calls. If a callback of these calls does lock a submap that is held, a mutex is locked twice.", "quantifier": "all element types, hashes, mutex kinds, numbers of submaps, histories before, and programs of one thread with callbacks in callbacks to any depth that depend on all answers", "why_tests_cant": "the depth of nesting and the history that determines which submap reallocates are unbounded; tests use callbacks that only touch the element.", "anchors": [{"file": "include/gtl/phmap.hpp", "symbols": ["modify_if", "if_contains", "erase_if", "lazy_emplace_l", "try_emplace_l", "modify_if_impl", "erase_if_impl", "find_or_prepare_insert_with_hash", "lazy_emplace_at"]}]}
{"id": "C116", "title": "Callbacks that call back while other threads use the container", "statement": "Any number of threads use one parallel container with real mutexes, and the callbacks they pass to if_contains, modify_if, try_emplace_l and lazy_emplace_l (for elements that are there) may call the same container again, to any depth. As long as no call is about the submap of a call around it, every history of calls and answers can be explained by giving each call, also those made by callbacks, one instant in which it takes effect, in the order of the program; nothing is undefined, what is in the container at the end is what the explanation says, and while a callback is running no other thread changes the submap of its element. If moreover the calls made by a callback are always about submaps with greater numbers than those of the calls around them, the threads never deadlock. Without that, two threads can wait for each other forever; a callback that uses the submap of its own call waits for itself.", "quantifier": "all element types, hashes, real mutex kinds, numbers of submaps, histories before, numbers of threads, programs with callbacks in callbacks to any depth that depend on all answers, schedules, and ways of cutting the critical sections into atomic actions", "why_tests_cant": "schedules, numbers of threads and nesting depths are unbounded, and deadlocks need one particular interleaving.", "anchors": [{"file": "include/gtl/phmap.hpp", "symbols": ["if_contains", "modify_if", "try_emplace_l", "lazy_emplace_l", "modify_if_impl", "erase_if_impl", "find_or_prepare_insert_with_hash", "LockableImpl"]}]}
{"id": "C117", "title": "Number of buckets and load factor of parallel hash containers", "statement": "bucket_count() of a parallel container is never less than size(), so that load_factor() is never more than 1, and up to one bucket in each submap never more than 7/8. If no submap ever holds more than M elements and no call asks for room for more than M in a submap, no submap ever has more than 32/7 M buckets, however long elements are erased and inserted; the bound of the ordinary containers, in terms of the peak of the whole container, does not hold. An insertion leaves all buckets alone or takes those of one submap from c to 2c+1, and then that submap is at least 7/32 full. No call takes buckets away, and calls that insert nothing leave the buckets of every submap as they are. A new container has no buckets; one constructed with a bucket count n has at least n in every submap.", "quantifier": "all element types, hashes, group widths, mutex kinds, numbers of submaps, reachable containers, calls, and histories of any length on any number of containers", "why_tests_cant": "the bounds are over histories of any length with any distribution of the keys over the submaps.", "anchors": [{"file": "include/gtl/phmap.hpp", "symbols": ["parallel_hash_set", "bucket_count", "load_factor", "reserve", "rehash", "prepare_insert", "rehash_and_grow_if_necessary", "NormalizeCapacity"]}]}
{"id": "C118", "title": "What the debug interface of the hash containers reports", "statement": "The number of probes reported for a key ends without undefined behaviour on every reachable container, ordinary or parallel, and is the work that find does for the key: the comparisons that fail plus the groups of control bytes after the first one; for a new container it is 0. The reported number of allocated bytes is 0 for a container that has allocated nothing; otherwise it is the size of the array of the table plus the space of each element once. For the array it is what the allocator is asked for, up to less than one alignment. The lower bound reported for n elements is never more than what a container with n or more elements reports, whatever was done to it.", "quantifier": "all element types, hashes, group widths, slot sizes and alignments, space functions, reachable containers and keys, unless the sizes exceed the address space", "why_tests_cant": "the claim relates two loops on every table that any history can produce, and a bound over all histories.", "anchors": [{"file": "include/gtl/phmap.hpp", "symbols": ["HashtableDebugAccess", "GetNumProbes", "AllocatedByteSize", "LowerBoundAllocatedByteSize"]}]}
{"id": "C119", "title": "Scoped helpers when operations of the type throw", "statement": "A scope that begins with a scoped_set_value restores the variable, also when the body throws, whatever the type. If the object cannot be made because an operation of the type throws, the body does not run, the exception reaches the caller and the variable is as before. replace and change either do their work or leave the variable as before.", "quantifier": "all types, all combinations of operations that throw and promises of the type, all bodies, values, dismissals", "why_tests_cant": "the claim is over all types and places where an exception may be thrown; tests use types that do not throw.", "anchors": [{"file": "include/gtl/utils.hpp", "symbols": ["scoped_set_value", "change", "replace"]}]}
{"id": "C12", "title": "operator== is set equality", "statement": "a == b iff both contain the same elements, whatever their histories, capacities and slot orders; in particular == is reflexive and symmetric.", "quantifier": "all pairs of reachable states", "why_tests_cant": "pairs of layouts of unbounded size", "anchors": ["include/gtl/phmap.hpp: operator==, has_element"]}
{"id": "C120", "title": "Timestamps in several threads", "statement": "Threads that touch, reset, merge and compare timestamps of their own do not disturb each other: there is no data race, every touch gives a timestamp that is newer than all timestamps touched before, and two touches never give equal timestamps. Calls that only look may be made by many threads on the same timestamps. With a mutex around every call all answers are those of moments in time.", "quantifier": "any number of threads and timestamps, all calls, all schedules, all ways to cut the calls into atomic actions", "why_tests_cant": "the claim is over all interleavings.", "anchors": [{"file": "include/gtl/utils.hpp", "symbols": ["timestamp", "touch", "is_newer_than", "is_older_than", "clock_"]}]}
{"id": "C121", "title": "Lists of elements computed from each other", "statement": "lazy_list(first, next)[i] is the first element if i is 0, and otherwise what next computes for i, next asking the list for the elements it wants; it can be read whenever the list has an element at i, which is so for all i if next asks only for elements before the one it computes. No element is computed twice.", "quantifier": "all functions, element types and indices, also functions that decide by the elements read which to ask for next", "why_tests_cant": "the claim is over all functions; that a reference outlives what it refers to shows in a test only by chance.", "anchors": [{"file": "include/gtl/memoize.hpp", "symbols": ["lazy_list", "operator[]"]}]}
{"id": "C122", "title": "Rows of a soa as references", "statement": "A row obtained with operator[] or view refers to the table: it can be read and written for as long as the table has a row at its index and does not need more room than it had when the row was taken (after reserve(n): while there are at most n rows), through insertions, sorts and assignments, and always shows the row that is at its index now. Writing through a view changes the named columns of that row and nothing else; assigning a row to a row copies all fields. When a column needs more room, references into it are gone.", "quantifier": "all tables, histories, indices and choices of columns, all ways in which std::vector grows, all sorting functions", "why_tests_cant": "the claim is over all histories between taking a row and using it; use of a reference that is gone is seen in tests only by chance.", "anchors": [{"file": "include/gtl/soa.hpp", "symbols": ["operator[]", "view", "get_row_impl", "reserve", "insert", "resize", "sort_by_field"]}]}
{"id": "C123", "title": "What stopwatches measure", "statement": "since_start() is the time since the stopwatch was last started, since_snap() the time since it was last started or snapped, start_to_snap() the time between the two. None of them is ever negative, and the last two add up to the first. After a block with a start_snap, start_to_snap() is the time the block took, also when it was left by an exception. A basic_stopwatch measures from its construction or last start, and prints the time at its end exactly if it has a message.", "quantifier": "all programs that use any number of stopwatches, with nested blocks, exceptions and decisions that depend on the times, all clocks", "why_tests_cant": "the claim is over all programs and all behaviours of the clock; a test sees one of each, and times differ from run to run.", "anchors": [{"file": "include/gtl/stopwatch.hpp", "symbols": ["stopwatch", "start_snap", "basic_stopwatch"]}]}
{"id": "C124", "title": "Timestamps tell what is out of date", "statement": "For objects whose timestamps are touched whenever they change (touch, or set_with_ts with a new value), and things made of such objects, to any depth, whose get_timestamp() combines those of their parts with |: x.is_newer_than(y) holds exactly if some part of x was created or changed after everything in y, and is_older_than is the converse. So a result whose timestamp is touched when it is computed is older than what it was computed from exactly if something of that changed since, and right after being computed anew it is not. Setting a member to the value it has is no change. (While there are less than 2^64 changes in the whole program.)", "quantifier": "all programs that create, touch and set any number of objects, all ways to combine them", "why_tests_cant": "the claim is over all histories of changes and all compositions.", "anchors": [{"file": "include/gtl/utils.hpp", "symbols": ["provides_timestamp", "is_newer_than", "is_older_than", "operator|", "timestamp", "set_with_ts"]}]}
{"id": "C125", "title": "Map elements whose keys have to be copied", "statement": "Insertions, removals, rehashing and swaps move the elements of maps from place to place. Each element keeps its key and its value, and every object is constructed and destroyed exactly once, also for key types for which pair<const K, V> cannot be treated as pair<K, V>, so that keys are copied instead of moved. If copying a key throws, the container can still be used and destroyed.", "quantifier": "all nodes and tables, positions and numbers of elements, all key and value types and whatever moves leave behind in them, all copies that throw", "why_tests_cant": "the claim is over all sequences of places and all points at which a copy can fail; common key types are moved, so that tests hardly ever run the other half of the code.", "anchors": [{"file": "include/gtl/gtl_base.hpp", "symbols": ["map_slot_policy", "IsLayoutCompatible", "map_slot_type"]}, {"file": "include/gtl/btree.hpp", "symbols": ["emplace_value", "remove_values_ignore_children", "rebalance_right_to_left", "rebalance_left_to_right", "merge", "split", "swap"]}]}
{"id": "C13", "title": "merge moves exactly the missing elements", "statement": "a.merge(b): afterwards a holds the union with a's elements winning; b keeps exactly those of its elements whose key was already in a.", "quantifier": "all pairs of reachable states", "why_tests_cant": "iterates over b while erasing from it", "anchors": ["include/gtl/phmap.hpp: raw_hash_set::merge"]}
{"id": "C14", "title": "extract / re-insert node", "statement": "extract(key) removes that element and returns it; inserting the node in a container adds it iff the key is absent, and returns it unchanged otherwise.", "quantifier": "all reachable states, all keys", "why_tests_cant": "all layouts", "anchors": ["include/gtl/phmap.hpp: extract, insert(node_type&&)"]}
{"id": "C15", "title": "A throwing element constructor leaves the container unchanged", "statement": "If constructing the new element throws during insert/emplace/lazy_emplace, the container keeps its previous contents and size().", "quantifier": "all reachable states, every throw point", "why_tests_cant": "crash-point property: every state x throw point", "anchors": ["include/gtl/phmap.hpp: prepare_insert, emplace_decomposable, lazy_emplace"]}
{"id": "C16", "title": "dump then load restores the container", "statement": "phmap_dump followed by phmap_load into any container (empty or not) yields a container with the same elements, same size and capacity, on which all operations behave as before; nothing outside the written bytes is needed.", "quantifier": "all reachable states with trivially copyable elements", "why_tests_cant": "byte-level layout including tombstones and control clones for all states", "anchors": ["include/gtl/phmap_dump.hpp: raw_hash_set::phmap_dump, phmap_load"]}
{"id": "C17", "title": "load detects a truncated archive", "statement": "phmap_load of a strict prefix of a dumped archive reports failure and does not produce an inconsistent container.", "quantifier": "all states, all truncation points", "why_tests_cant": "crash-point property", "anchors": ["include/gtl/phmap_dump.hpp: phmap_load, BinaryInputArchive::loadBinary"]}
{"id": "C18", "title": "Results do not depend on the SIMD group implementation", "statement": "The SSE2 (16-wide) and portable (8-wide) group implementations report the same: a match set that contains every true match and only occupied slots, exact empty / empty-or-deleted sets, and exact count of leading empty-or-deleted slots; hence API results coincide.", "quantifier": "all 8- and 16-byte control groups and all 7-bit tags", "why_tests_cant": "2^64 / 2^128 groups", "anchors": ["include/gtl/phmap.hpp: GroupSse2Impl, GroupPortableImpl, BitMask"]}
{"id": "C19", "title": "Probing visits every slot", "statement": "For any hash value and any capacity 2^k-1, the probe sequence visits every slot within the first ceil((capacity+1)/width) groups, so a lookup stops after at most that many groups.", "quantifier": "all hash values, all capacities", "why_tests_cant": "unbounded capacities", "anchors": ["include/gtl/phmap.hpp: probe_seq, probe"]}
{"id": "C20", "title": "Stored hashes and heterogeneous lookups agree", "statement": "find/emplace/erase with a precomputed hash equal to hash(key) give the same results as the plain calls; equality functors weaker than identity (e.g. case-insensitive) still give at most one element per class.", "quantifier": "all keys, all equivalence functors compatible with the hash", "why_tests_cant": "all functors", "anchors": ["include/gtl/phmap.hpp: find(key,hash), emplace_with_hash, lazy_emplace_with_hash"]}
{"id": "C21", "title": "Parallel map equals one map", "statement": "A parallel hash container with any number 2^N of submaps, used from one thread, gives the same results as a single finite map: every key lives in exactly one submap, size is the sum, iteration over all submaps visits each element once.", "quantifier": "all N, all hash functions, all histories", "why_tests_cant": "all hashes to submap distributions", "anchors": ["include/gtl/phmap.hpp: parallel_hash_set::subidx, emplace, find, erase, size, iterator::skip_empty"]}
{"id": "C22", "title": "Parallel map operations are linearizable", "statement": "With a real mutex, concurrent insert / insert_or_assign / try_emplace_l / lazy_emplace_l / modify_if / if_contains / contains calls by any number of threads return results, and leave contents, explainable by some sequential order of the calls consistent with real time.", "quantifier": "all numbers of threads, all schedules", "why_tests_cant": "schedules are unbounded", "anchors": ["include/gtl/phmap.hpp: lazy_emplace_l, try_emplace_l, modify_if_impl, if_contains, UniqueLock, SharedLock"]}
{"id": "C23", "title": "Concurrent erase reports what it erased", "statement": "Among concurrent erase(key)/erase_if(key) calls, the number of calls that report an erasure equals the number of elements removed, for every mutex type.", "quantifier": "all schedules, exclusive and shared mutexes", "why_tests_cant": "needs a specific interleaving between lock upgrade steps", "anchors": ["include/gtl/phmap.hpp: parallel_hash_set::erase_if_impl, ReadWriteLock::switch_to_unique"]}
{"id": "C24", "title": "Lock guards release exactly what they acquired", "statement": "For any sequence of construct / move / swap / lock / unlock / try_lock / destroy on the library's lock guards, the mutex is unlocked exactly as often as it was locked, never without being held, and no guard leaves it held after destruction, for all construction modes (plain, defer, adopt, try_to_lock).", "quantifier": "all sequences of guard operations, all mutex states", "why_tests_cant": "unbounded sequences", "anchors": ["include/gtl/phmap.hpp: WriteLock, ReadLock, ReadWriteLock"]}
{"id": "C25", "title": "Parallel merge, swap, equality, clear, reserve", "statement": "The bulk operations of parallel containers act as the corresponding operation on the whole map (merge = union with left priority, swap exchanges, == is equality of contents, clear empties, rehash/reserve keep contents).", "quantifier": "all pairs of reachable states, all N", "why_tests_cant": "state pairs unbounded", "anchors": ["include/gtl/phmap.hpp: parallel_hash_set::merge, swap, operator==, clear, rehash, reserve"]}
{"id": "C26", "title": "LRU cache returns only the latest inserted value", "statement": "get(k) returns nothing or the value most recently inserted for k; after insert(k,v) with a cache size of at least one per shard, get(k)==v immediately.", "quantifier": "all histories of insert/get/exists/set_cache_size, all keys, hash functions and shard counts", "why_tests_cant": "unbounded histories", "anchors": ["include/gtl/lru_cache.hpp: insert, get, exists"]}
{"id": "C27", "title": "LRU cache evicts the least recently used entry", "statement": "With one shard and fixed maximum m>=1, the cache always holds exactly the min(m, distinct) most recently used keys; size() never exceeds m; with S shards each shard behaves so with m/S.", "quantifier": "all histories, all m and S", "why_tests_cant": "unbounded histories", "anchors": ["include/gtl/lru_cache.hpp: insert, get, set_cache_size"]}
{"id": "C28", "title": "Copying or moving an LRU cache gives an independent, valid cache", "statement": "After copying or moving an LRU cache the new object answers every later call like the original would have, whatever later happens to the source (including its destruction).", "quantifier": "all histories before and after the copy/move", "why_tests_cant": "aliasing shows only under particular later histories", "anchors": ["include/gtl/lru_cache.hpp: lru_cache_impl (implicit copy/move)", "include/gtl/phmap.hpp: parallel_hash_set copy/move constructors (aux_ not copied)"]}
{"id": "C29", "title": "memoize is transparent", "statement": "Calling a memoized pure function returns exactly what the function returns, for every history of calls, clear and reserve, with or without size limit, single- or multi-threaded.", "quantifier": "all pure functions, all call histories and schedules", "why_tests_cant": "unbounded histories", "anchors": ["include/gtl/memoize.hpp: mt_memoize::operator(), mt_memoize_lru::operator()"]}
{"id": "C30", "title": "memoize evaluates once per argument", "statement": "Without clear, memoize evaluates the function at most once per distinct argument tuple (single-threaded, or multi-threaded in non-recursive mode), and contains(args) reports exactly the evaluated arguments.", "quantifier": "all call histories, all schedules", "why_tests_cant": "unbounded histories and schedules", "anchors": ["include/gtl/memoize.hpp: mt_memoize::operator(), contains"]}
{"id": "C31", "title": "memoize_lru is bounded", "statement": "The number of entries of memoize_lru never exceeds the configured per-shard maximum after each call; entries evicted are the least recently used.", "quantifier": "all call histories, all limits", "why_tests_cant": "unbounded histories", "anchors": ["include/gtl/memoize.hpp: mt_memoize_lru"]}
{"id": "C32", "title": "bit_vector element access", "statement": "set(i), set(i,b), reset(i), flip(i) change exactly bit i; operator[] reads the last value written; whole-vector set/reset/flip act on every bit in [0,size).", "quantifier": "all sizes, all indices, all contents", "why_tests_cant": "sizes and contents unbounded, word boundary cases", "anchors": ["include/gtl/bit_vector.hpp: vec::set, reset, flip, operator[]"]}
{"id": "C33", "title": "bit_vector boolean operators act bitwise", "statement": "|=, &=, ^=, -=, |, &, ^, -, ~ on vectors of equal size compute the pointwise boolean operation and keep size; ~ keeps unused high bits zero.", "quantifier": "all sizes and contents", "why_tests_cant": "unbounded", "anchors": ["include/gtl/bit_vector.hpp: vec operators, _view::visit, or_with"]}
{"id": "C34", "title": "bit_vector shifts", "statement": "v >>= n moves bit i to i+n and fills zeros at the bottom; v <<= n moves bit i to i-n and fills zeros at the top (the bit order of this library), for every n including n >= size and n not a multiple of 64; same on views without touching bits outside the view.", "quantifier": "all sizes, offsets, shift counts and contents", "why_tests_cant": "unaligned word crossings for all offsets", "anchors": ["include/gtl/bit_vector.hpp: _view::operator<<=, operator>>="]}
{"id": "C35", "title": "bit_vector queries", "statement": "any/every/none/count/==/disjoint/contains/intersects agree with the bits in range, for vectors and views; == and hash agree (equal vectors hash equal).", "quantifier": "all sizes, offsets, contents", "why_tests_cant": "unbounded", "anchors": ["include/gtl/bit_vector.hpp: any, every, none, count, operator==, disjoint, contains, std::hash"]}
{"id": "C36", "title": "bit_vector find_first / find_next", "statement": "find_first() returns the index of the lowest set bit or npos; find_next(i) the lowest set bit index at or after i (resp. as documented) or npos, for vectors and views.", "quantifier": "all sizes, offsets, contents", "why_tests_cant": "fails only for unaligned multi-word views", "anchors": ["include/gtl/bit_vector.hpp: find_first, find_next"]}
{"id": "C37", "title": "bit_vector resize", "statement": "resize(n, v) keeps bits below min(old, n) and gives every new bit the value v.", "quantifier": "all old and new sizes, contents, both values", "why_tests_cant": "word boundary positions", "anchors": ["include/gtl/bit_vector.hpp: vec::resize, storage::resize"]}
{"id": "C38", "title": "bit_vector view assignment copies", "statement": "Assigning one view to another of equal length copies the source bits (as they were before) to the destination and changes nothing else, even when the views overlap.", "quantifier": "all vectors, all pairs of views", "why_tests_cant": "overlap geometry unbounded", "anchors": ["include/gtl/bit_vector.hpp: _view::operator="]}
{"id": "C39", "title": "soa sort keeps rows together", "statement": "sort_by_field reorders rows by the chosen column stably: the resulting rows are a permutation of the original rows, sorted by that column, equal keys keep order, and every column stays aligned.", "quantifier": "all numbers of rows and columns, all comparison functions (strict weak orders)", "why_tests_cant": "in-place cycle permutation over all permutations", "anchors": ["include/gtl/soa.hpp: sort_by_field, reorder"]}
{"id": "C40", "title": "soa columns keep equal length", "statement": "After any history of insert/resize/clear/sort, all columns have size() entries and operator[](i) returns the i-th entry of each column.", "quantifier": "all histories", "why_tests_cant": "unbounded", "anchors": ["include/gtl/soa.hpp: insert, resize, clear, operator[]"]}
{"id": "C41", "title": "intrusive_ptr counts owners", "statement": "In every history of construct/copy/move/assign/reset/swap/detach/cast/destroy, an object's use_count equals the number of intrusive_ptrs pointing at it (plus detached references), the object is deleted exactly when the last one goes away, exactly once, and never used after deletion; self-assignment is harmless.", "quantifier": "all histories, any number of pointers and objects", "why_tests_cant": "unbounded histories and aliasing", "anchors": ["include/gtl/intrusive.hpp: intrusive_ptr, intrusive_ref_counter"]}
{"id": "C42", "title": "intrusive_ptr is safe across threads", "statement": "With thread_safe_counter, threads that each own references may copy and drop them in any interleaving: the object is deleted exactly once, after the last drop, and never accessed afterwards. With thread_unsafe_counter this fails.", "quantifier": "all numbers of threads, all schedules", "why_tests_cant": "schedules", "anchors": ["include/gtl/intrusive.hpp: thread_safe_counter, thread_unsafe_counter, intrusive_ptr_release"]}
{"id": "C43", "title": "B-tree map/set history equivalence", "statement": "For every history of insert/erase/find/lower_bound/upper_bound/clear/iteration on a btree set or map, results equal those of a sorted list without duplicate keys (multiset variants: with duplicates).", "quantifier": "all orders (strict weak), all node sizes, all histories", "why_tests_cant": "unbounded histories, splits/merges/rebalancing at all depths", "anchors": ["include/gtl/btree.hpp: btree::insert_unique, erase, internal_locate, rebalance_or_split, try_merge_or_rebalance"]}
{"id": "C44", "title": "B-tree stays sorted and balanced", "statement": "After every operation iteration is in key order, all leaves have the same depth and node fill bounds hold.", "quantifier": "all histories", "why_tests_cant": "unbounded", "anchors": ["include/gtl/btree.hpp: btree_node::split, merge, rebalance_left_to_right, rebalance_right_to_left"]}
{"id": "C45", "title": "gtl::vector sequence semantics", "statement": "Every operation (push_back, emplace_back, insert, erase, resize, assign, reserve, shrink_to_fit, copy, move) has the effect of the same operation on a mathematical sequence, size()<=capacity(), including when the inserted value aliases an element of the vector.", "quantifier": "all histories, all positions, all counts", "why_tests_cant": "unbounded; aliasing x reallocation", "anchors": ["include/gtl/vector.hpp"]}
{"id": "C46", "title": "slice selects the expected elements", "statement": "slice(v, first, last, stride) returns the elements at first, first+stride, ... before last with negative indices counted from the end as documented; cat concatenates; map applies the function to every element in order.", "quantifier": "all vectors, indices, strides", "why_tests_cant": "integer corner cases", "anchors": ["include/gtl/vec_utils.hpp: slice, cat, map"]}
{"id": "C47", "title": "binary_search finds a flip point", "statement": "For a predicate false at l and true at r, binary_search terminates and returns a pair of neighbours in [l, r] with the predicate false at the first and true at the second; for a monotone predicate this is the point where it flips.", "quantifier": "all integral types, all ranges, all predicates; all ranges of doubles; any middle function answering strictly between", "why_tests_cant": "all integers", "anchors": ["include/gtl/adv_utils.hpp: binary_search, middle"]}
{"id": "C48", "title": "Hashing respects equality and loses nothing", "statement": "Keys that compare equal have equal hashes, for all supported key kinds (integers, floating point including the two zeros, pairs and tuples nested to any depth); the hash of a pair or tuple is a function of the hashes of its elements in order; hashing an integer or a double, combining, and mixing lose nothing: different inputs give different results, so tuples differing in one element's hash have different hashes.", "quantifier": "all keys, all 64-bit values, all tuples", "why_tests_cant": "2^64 inputs", "anchors": ["include/gtl/phmap_utils.hpp: phmap_mix, umul128, HashState, Combiner"]}
{"id": "C49", "title": "Bit utilities agree with their mathematical definition", "statement": "Portable count-leading/trailing-zeros and byte-swap fallbacks equal the mathematical functions; stores in a named byte order put every byte where that order says on machines of either byte order, change nothing else, and load(store(x)) = x for every width; host-to-network conversion gives the big-endian image.", "quantifier": "all 32/64-bit values", "why_tests_cant": "2^64 inputs", "anchors": ["include/gtl/bits.hpp: CountLeadingZeros64Slow, CountTrailingZerosNonZero64Slow, gbswap_64, little_endian, big_endian"]}
{"id": "C50", "title": "Scoped helpers restore state", "statement": "scoped_set_value restores the old value, scoped_guard and scoped_set_unset run their function exactly once at scope end (unless dismissed), in LIFO order for nested scopes, also when the scope is left by exception; dismiss stops it; replace and change assign the value and answer the old value / whether it changed.", "quantifier": "all nestings and exits", "why_tests_cant": "unbounded nestings", "anchors": ["include/gtl/utils.hpp: scoped_set_value, scoped_guard, scoped_set_unset"]}
{"id": "C51", "title": "timestamps order touches", "statement": "A timestamp touched later is newer: after touch, is_newer_than holds against every timestamp touched before, and update-tracking (touch with max) never goes backwards.", "quantifier": "all histories of touch/reset/copies", "why_tests_cant": "unbounded histories", "anchors": ["include/gtl/utils.hpp: timestamp"]}
{"id": "C52", "title": "bit_vector boolean operators on views", "statement": "|=, &=, ^=, -= and or_not on two views of equal length combine each bit of the destination with the corresponding source bit as it was before the call and change nothing else, also when both views are in one vector.", "quantifier": "all vectors, all pairs of views of equal length, all contents", "why_tests_cant": "offsets, lengths and overlaps are unbounded", "anchors": ["include/gtl/bit_vector.hpp: _view::bin_assign, operator|=, &=, ^=, -=, or_not"]}
{"id": "C53", "title": "bit_vector assignment from integers", "statement": "Building a vector from 64-bit words, or assigning words to a vector or to a view, writes the binary digits of the words from the lowest bit up, as many as fit, and changes nothing else.", "quantifier": "all vectors, views and lists of words", "why_tests_cant": "all alignments of views against words", "anchors": ["include/gtl/bit_vector.hpp: vec(std::initializer_list), vec::operator=, _view::operator=(uint64_t), operator=(std::initializer_list)"]}
{"id": "C54", "title": "bit_vector conversions", "statement": "to_string lists the bits from the highest to the lowest, to_ullong is the number written by the lowest 64 bits, and the printed form of a view is its hexadecimal representation.", "quantifier": "all vectors, all views", "why_tests_cant": "unbounded sizes, unaligned views", "anchors": ["include/gtl/bit_vector.hpp: to_string, to_ullong, operator std::string, append_to_string"]}
{"id": "C55", "title": "bit_vector histories", "statement": "Any sequence of modifying calls on any number of vectors, views and copies leaves each vector with the bits that the same sequence gives on plain lists of bits, without undefined behaviour.", "quantifier": "all histories of calls, of any length, on any number of vectors", "why_tests_cant": "histories unbounded", "anchors": ["include/gtl/bit_vector.hpp: all modifying members of vec and _view"]}
{"id": "C56", "title": "memoizing a recursive function with a size limit", "statement": "memoize_lru applied to a function that calls the memoized function again returns the values of the function, without undefined behaviour.", "quantifier": "all terminating recursive pure functions, all sizes, all sequences of calls", "why_tests_cant": "whether the recursive call disturbs the pending insertion depends on hash values, capacities and depth", "anchors": ["include/gtl/memoize.hpp: mt_memoize_lru::operator(), memoize_lru", "include/gtl/phmap.hpp: parallel_hash_set::lazy_emplace_l, raw_hash_set::lazy_emplace_at, prepare_insert"]}
{"id": "C57", "title": "gtl::vector exception safety", "statement": "When an operation throws, all other vectors are unchanged and the vector itself still holds valid elements; constructors leave no vector; push_back, emplace_back, reserve, resize, insertion at the end and at() leave everything unchanged for element types that can be copied or moved without exceptions; at() throws out_of_range exactly when the index is not less than size(); destructor, swap, moves, pop_back, clear and shrink_to_fit never throw.", "quantifier": "all histories, all operations, all points at which a constructor, assignment or allocation throws", "why_tests_cant": "every step of every operation in every state is a possible point of failure", "anchors": ["include/gtl/vector.hpp: vector, scoped_guard uses, relocate_move, do_real_insert"]}
{"id": "C58", "title": "gtl::vector memory discipline", "statement": "Each element is constructed once and destroyed once, no operation reads or writes outside live objects or the buffer, every block of memory in use is the buffer of exactly one vector, and when all vectors are destroyed no memory is left, also after exceptions.", "quantifier": "all histories over any number of vectors, all points of failure", "why_tests_cant": "unbounded histories and failure points; sanitizers see only the runs made", "anchors": ["include/gtl/vector.hpp: Impl::destroy, D_deallocate, M_destroy_range_e, make_window, wrap_frame"]}
{"id": "C59", "title": "gtl::vector capacity and reference stability", "statement": "An operation whose result fits in the capacity keeps buffer and capacity, so that references to elements it does not move stay valid; operations leave buffers of other vectors alone; reserve(n) gives capacity at least n; push_back grows the capacity by a factor of at least 1.5; shrink_to_fit makes the capacity the number of elements, or changes nothing when something throws.", "quantifier": "all histories, all operations, all sizes and capacities", "why_tests_cant": "all combinations of size, capacity and operation", "anchors": ["include/gtl/vector.hpp: reserve, computePushBackCapacity, emplace_back_aux, do_real_insert, assign, resize"]}
{"id": "C60", "title": "B-tree containers are values", "statement": "Copying, assigning, moving, swapping, merging and comparing btree containers, mixed with any other calls on them, behaves as on independent sorted sequences: a copy does not change when the original does, merge takes over exactly what the destination lacks (everything, with duplicates) and leaves the rest, == and < compare the sequences.", "quantifier": "all histories over any number of containers, all strict weak orders, all node sizes", "why_tests_cant": "unbounded histories over several containers", "anchors": ["include/gtl/btree.hpp: btree::operator=, copy_or_move_values_in_order, swap, btree_set_container::merge, btree_multiset_container::merge, operator==, operator<"]}
{"id": "C61", "title": "B-tree containers neither leak nor leave dangling nodes", "statement": "After every history each node allocated and not yet freed is reachable from the container that allocated it, every node reachable is allocated, and clearing or destroying a container frees all of its nodes exactly once.", "quantifier": "all histories, all node sizes", "why_tests_cant": "leaks after particular sequences of merges, range erasures and shrinking show only for those sequences", "anchors": ["include/gtl/btree.hpp: btree::clear, internal_clear, merge_nodes, try_shrink, erase_same_node"]}
{"id": "C62", "title": "Inserting an element of the container itself into a B-tree", "statement": "insert(x), with or without hint, where x is a reference to an element of the container itself, behaves as if x had been copied first.", "quantifier": "all containers, all elements of them", "why_tests_cant": "goes wrong only when the insertion makes room by moving the element that is referred to", "anchors": ["include/gtl/btree.hpp: btree::internal_emplace, insert_multi, insert_hint_multi, btree_node::emplace_value"]}
{"id": "C63", "title": "References and iterators into hash containers", "statement": "Node containers: a reference to an element stays valid, at the same address, until the element is removed, whatever is called in between. Flat containers: iterators and references stay valid over any calls that insert nothing and do not rehash, reserve or clear, and, after reserve(n) on a container from which nothing was erased, over any mixture of calls that makes at most n - size() insertions.", "quantifier": "all containers, keys, hash functions and histories", "why_tests_cant": "a moved element is still found under its key, so ordinary tests do not notice; whether it moves depends on hash values and on earlier removals", "anchors": ["include/gtl/phmap.hpp: raw_hash_set::prepare_insert, resize, drop_deletes_without_resize, erase_meta_only", "include/gtl/phmap.hpp: flat_hash_map, node_hash_map"]}
{"id": "C64", "title": "Arguments that refer to elements of a flat hash map", "statement": "Passing a reference to an element of the container to try_emplace, emplace or insert_or_assign, as in m.try_emplace(k, m.at(j)), behaves as if the element had been copied first.", "quantifier": "all flat containers, elements and new keys", "why_tests_cant": "goes wrong only when that very insertion has to rehash", "anchors": ["include/gtl/phmap.hpp: raw_hash_map::try_emplace_impl, insert_or_assign_impl, raw_hash_set::emplace_decomposable, prepare_insert"]}
{"id": "C65", "title": "reserve(n) and removals", "statement": "After reserve(n), while the container never holds more than n elements, insertions and removals do not reallocate or move elements (as for std::unordered_map).", "quantifier": "all n and all histories of insertions and removals within n", "why_tests_cant": "tombstones consume the growth budget only for particular patterns of full groups", "anchors": ["include/gtl/phmap.hpp: raw_hash_set::prepare_insert, resize, drop_deletes_without_resize, erase_meta_only", "include/gtl/phmap.hpp: flat_hash_map, node_hash_map", "include/gtl/phmap.hpp: raw_hash_set::reserve"]}
{"id": "C66", "title": "A throwing element constructor during B-tree insertion", "statement": "If constructing the new element throws while it is inserted into a btree_set, btree_map, btree_multiset or btree_multimap, the container holds the same elements as before, remains usable and can be destroyed, and neither elements nor nodes leak.", "quantifier": "all containers, node sizes, orders, histories and inserted elements", "why_tests_cant": "which slots are raw depends on where in its leaf the element goes and on splits and rebalancing; the damage shows only later, as undefined behaviour", "anchors": ["include/gtl/btree.hpp: btree_node::emplace_value, btree::internal_emplace, insert_unique, insert_multi, rebalance_or_split, internal_clear"]}
{"id": "C67", "title": "LRU cache used from many threads", "statement": "Several threads may call insert, get and exists on one mt_lru_cache at the same time: every call behaves as if it happened at one instant between its start and its end, the values returned by get were inserted for that key, evictions follow the order of these instants, nothing is undefined and the threads do not block each other for ever.", "quantifier": "all numbers of threads, calls, schedules, cuts of the code into atomic actions, earlier histories, cache sizes, shard counts and mutex types", "why_tests_cant": "interleavings and eviction orders cannot be enumerated; a lost or doubled list node shows only under rare schedules", "anchors": ["include/gtl/lru_cache.hpp: lru_cache_impl::insert, get, exists", "include/gtl/phmap.hpp: parallel_hash_set::if_contains, lazy_emplace_l"]}
{"id": "C68", "title": "Memoized function with limited memory used from many threads", "statement": "Several threads may call one mt_memoize_lru object, or ask it whether it contains a value, at the same time: every call returns the value of the function, the calls behave as if made one after the other in an order compatible with their overlaps (so the function runs exactly when that order says the value was not remembered), nothing is undefined and there is no deadlock.", "quantifier": "all numbers of threads, calls, schedules, cuts into atomic actions, earlier histories, sizes and mutex types; functions that do not call the memoized function", "why_tests_cant": "interleavings and eviction orders cannot be enumerated", "anchors": ["include/gtl/memoize.hpp: mt_memoize_lru::operator(), contains", "include/gtl/phmap.hpp: parallel_hash_set::if_contains, lazy_emplace_l"]}
{"id": "C69", "title": "Operations on whole parallel containers used from many threads", "statement": "Threads may call for_each, for_each_m, with_submap, with_submap_m, clear, rehash, reserve, merge, swap and == on whole parallel containers while others call these or the operations on single keys: every call behaves as a sequence of atomic steps, one for each submap in order, each taking place at one instant between its start and its end; nothing is undefined, and when all calls have returned the containers hold exactly what these steps say.", "quantifier": "all numbers of threads and containers, calls, schedules, cuts of the critical sections into atomic actions, earlier histories, submap counts, hash functions and mutex types (shared or not)", "why_tests_cant": "interleavings cannot be enumerated; a missing or wrong lock shows only under rare schedules", "anchors": ["include/gtl/phmap.hpp: parallel_hash_set::for_each, for_each_m, with_submap, with_submap_m, clear, rehash, reserve, merge, swap, operator==", "include/gtl/phmap.hpp: LockableBaseImpl::ReadLocks, WriteLocks, LockableImpl"]}
{"id": "C70", "title": "What a traversal guarantees while others modify the container", "statement": "While other threads insert, erase and move elements: for_each calls back at most once per key, only for elements that are in the container at some instant during the call and for every element that is in it all the time; for_each_m changes every element that is there all the time; no element survives clear; merge leaves an element behind only if its key was in the target at some instant; == says no only if the containers differ at some instant and says yes only if no element is in one and not in the other all the time.", "quantifier": "all executions as in C69, all completed calls in them", "why_tests_cant": "depends on every interleaving of the traversal with the updates", "anchors": ["include/gtl/phmap.hpp: parallel_hash_set::for_each, for_each_m, with_submap, with_submap_m, clear, rehash, reserve, merge, swap, operator==", "include/gtl/phmap.hpp: LockableBaseImpl::ReadLocks, WriteLocks, LockableImpl"]}
{"id": "C71", "title": "merge and swap between shared containers lose nothing", "statement": "If threads only merge and swap containers among each other (and look at them, or rehash them), all at the same time, then no element is lost or duplicated: in the end the containers together hold exactly the elements they held before.", "quantifier": "all executions as in C69 in which the threads make only such calls; any number of containers", "why_tests_cant": "an element can only get lost between two locks under a rare schedule", "anchors": ["include/gtl/phmap.hpp: parallel_hash_set::for_each, for_each_m, with_submap, with_submap_m, clear, rehash, reserve, merge, swap, operator==", "include/gtl/phmap.hpp: LockableBaseImpl::ReadLocks, WriteLocks, LockableImpl"]}
{"id": "C72", "title": "Operations on whole containers do not deadlock", "statement": "Threads that call operations on single keys and on whole parallel containers never wait for each other for ever.", "quantifier": "all executions as in C69", "why_tests_cant": "a deadlock needs one particular interleaving", "anchors": ["include/gtl/phmap.hpp: parallel_hash_set::for_each, for_each_m, with_submap, with_submap_m, clear, rehash, reserve, merge, swap, operator==", "include/gtl/phmap.hpp: LockableBaseImpl::ReadLocks, WriteLocks, LockableImpl"]}
{"id": "C73", "title": "Dump and load of parallel containers", "statement": "Dumping a parallel hash container and loading the archive into another parallel container with the same number of submaps gives a container with the same elements in the same iteration order, which behaves the same from then on, and consumes exactly the bytes written; loading an archive of a container with a different number of submaps returns false and leaves the container unchanged.", "quantifier": "all histories producing the two containers, numbers of submaps, hash functions, element types (as byte images), streams following the archive", "why_tests_cant": "the archive depends on the layout of every submap, which depends on the whole history", "anchors": ["include/gtl/phmap_dump.hpp: parallel_hash_set::phmap_dump, parallel_hash_set::phmap_load"]}
{"id": "C74", "title": "Memory of hash tables", "statement": "The control bytes and the slots of a hash table, for every capacity and every size and alignment of the slots, lie in the one block that is allocated for them: every slot is aligned, nothing overlaps, nothing lies behind the block; and the block is at most one alignment larger than necessary. This holds for any sequence of arrays laid out by the library.", "quantifier": "all layouts, element sizes, alignments, capacities, reachable tables, base addresses that respect the alignment", "why_tests_cant": "an overflow or misalignment needs particular combinations of sizes and capacities, and overlapping arrays may go unnoticed", "anchors": ["include/gtl/gtl_base.hpp: Layout, Allocate, Deallocate", "include/gtl/phmap.hpp: MakeLayout, initialize_slots"]}
{"id": "C75", "title": "Memory of B-tree nodes", "statement": "A B-tree node holds at least three values, otherwise as many as fit in the target size; the parent pointer, the counters, the values and the children of leaves and inner nodes lie aligned and without overlap in the block that is allocated for the node; and the one-byte or two-byte counters hold every count that occurs, so that a leaf is never taken for an inner node.", "quantifier": "all slot sizes and alignments, target sizes, and histories of calls", "why_tests_cant": "the number of values depends on compile-time arithmetic for every element size; tests use few types", "anchors": ["include/gtl/btree.hpp: NodeTargetValues, kNodeValues, LeafLayout, InternalLayout, node_count_type, field_type"]}
{"id": "C76", "title": "Failing allocation in B-tree containers", "statement": "When the allocator throws during an insertion into a B-tree container, the call is left by that exception and the container holds exactly what it held before (of a range: with the first elements of the range in it); it can be used further, every later call answers right, nothing is undefined and no node is leaked. Copying a container either gives the same elements or leaves no node behind; an assignment that fails leaves the first elements. With enough memory every call does what it should.", "quantifier": "all histories of calls by any caller, who may react to how calls ended; in each call any number of allocations succeed before one fails; all strict weak orders, node sizes of at least three values, sets and multisets", "why_tests_cant": "the number of allocations of an insertion depends on the whole shape of the tree; tests would have to make every one of them fail in every reachable tree", "anchors": ["include/gtl/btree.hpp: rebalance_or_split, internal_emplace, new_internal_node, new_leaf_node, new_leaf_root_node, insert_unique, insert_multi, insert_hint_unique, insert_hint_multi, insert_iterator_unique, copy_or_move_values_in_order, clear"]}
{"id": "C77", "title": "Failing allocation in hash containers", "statement": "When the allocator throws during a call on a hash container, the call is left by that exception and the containers hold exactly what they held before: the table is not even touched, so that iterators and references stay valid. Of a range insertion, the elements before the one that did not fit are in; of a merge, some elements have moved and all others are still in the source. An insertion throws only if its key is absent; lookups, erasures, moves, swaps and comparisons never throw. Every container can be used further and destroyed, every later call answers right, and no element is lost or leaked. With enough memory every call does what it should.", "quantifier": "all histories of calls on any number of containers, each call with any number of allocations that succeed before one fails, the caller going on after each exception; all hash functions and equivalences meeting the contract, all three control-group implementations", "why_tests_cant": "whether a call allocates depends on the whole history of the table; tests would have to make every allocation of every reachable table fail", "anchors": ["include/gtl/phmap.hpp: raw_hash_set::initialize_slots, resize, rehash_and_grow_if_necessary, prepare_insert, emplace, InsertSlot, insert, insert_or_assign, try_emplace, merge, rehash, reserve, copy constructor, operator=, explicit constructor"]}
{"id": "C78", "title": "Structure of arrays when memory runs out", "statement": "When memory runs out in a call on a soa, the call is left by an exception and the table shows the rows it showed before. A caller that resizes the table after each exception to the number of rows it had keeps, over any history, a table that shows exactly the rows of the calls that did not throw.", "quantifier": "all numbers of columns and column types, all tables, all calls that ask for memory, the exception in any column; all histories of calls with any of them throwing", "why_tests_cant": "which column runs out of memory depends on the capacities of all columns; tests do not make single allocations fail", "anchors": ["include/gtl/soa.hpp: soa::insert, insert_impl, resize, reserve, sort_by_field"]}
{"id": "C79", "title": "Bit vectors when memory runs out", "statement": "When memory runs out in resize or in the assignment of a bit vector, the vector is as before. This happens only if more slots of 64 bits are needed.", "quantifier": "all bit vectors that histories of calls produce, all sizes, all vectors assigned", "why_tests_cant": "it depends on when the allocator fails", "anchors": ["include/gtl/bit_vector.hpp: vec::resize, storage::resize, vec::operator=, vec::size, vec::operator[]"]}
{"id": "C80", "title": "Node handles own their elements", "statement": "Any history of calls that take elements out of hash containers into node handles, put them back (with or without hint, keeping or dropping the node returned), move, swap, assign over or end handles, and change elements while they are in a handle, runs without undefined behaviour; every handle and every container holds what it should. Every element has exactly one owner all the time: none is lost, duplicated or destroyed twice. A handle from which nothing could be inserted gives its element to the node returned. Moving a handle onto itself destroys its element.", "quantifier": "all histories of calls on any number of containers and handles, including the same handle as source and target; all hash functions and equivalences meeting the contract, all three control-group implementations", "why_tests_cant": "ownership is spread over containers, handles and temporaries; a leak or double destruction needs one particular interleaving of moves, failed insertions and assignments", "anchors": ["include/gtl/gtl_base.hpp: node_handle_base::operator=, node_handle_base(node_handle_base&&), destroy, reset, node_handle::value, key, mapped", "include/gtl/phmap.hpp: raw_hash_set::extract, insert(node_type&&), insert(const_iterator, node_type&&), InsertSlot"]}
{"id": "C81", "title": "A hash container can be used on after element constructors threw", "statement": "A program may catch the exceptions thrown by the constructors of new elements and go on using the container: in every history of calls, some of which throw, every call answers as if the calls that threw had not been made, and every call comes to an end.", "quantifier": "every history of calls on one container in which the constructor of the new element of any insertion may throw, every hash function, key equality and group implementation", "why_tests_cant": "The effect of exceptions adds up over a history and depends on which kind of slot each failing insertion met; tests throw once and look at the next call.", "anchors": [{"file": "include/gtl/phmap.hpp", "symbols": ["prepare_insert", "emplace_decomposable", "lazy_emplace_with_hash", "rehash_and_grow_if_necessary", "drop_deletes_without_resize", "reset_growth_left", "clear"]}]}
{"id": "C82", "title": "A memoized function that throws can be called on", "statement": "If the function throws during a call of the memoized function, the caller gets the exception, and everything goes on as if that call had not been made: later calls return the value of the function or throw only if the function throws, values that are kept are returned without running the function, contains() and size() report exactly what is kept, values that were completed before the exception are not lost, and every call comes to an end when the function does.", "quantifier": "every history of calls on one memoized function (unlimited or with a size limit; recursive or not; with or without mutex), every function, every point of every call at which it may throw, every hash function, equality and group implementation", "why_tests_cant": "An exception may come at any depth of the recursion and its effects add up; tests throw once, if at all, and do not look at what the table under the memoized function has become.", "anchors": [{"file": "include/gtl/memoize.hpp", "symbols": ["mt_memoize::operator()", "mt_memoize_lru::operator()", "contains", "clear", "size"]}, {"file": "include/gtl/phmap.hpp", "symbols": ["lazy_emplace_l", "prepare_insert", "rehash_and_grow_if_necessary"]}]}
{"id": "C83", "title": "Hash containers cost a constant amount of hashing and moving per inserted element, over any history", "statement": "Over any history of calls on a hash container, the user's hash function is called at most once for every key passed to a call, plus twice for every element that was inserted, plus once for every place reserved in advance beyond the current size (reserve, rehash, or the length of an inserted range). Elements already in the container are relocated at most three times per inserted element plus once per reserved place, and rehashing examines at most five slots per inserted element plus four per reserved place. Erasing never costs more than its own lookup, no matter how many tombstones it leaves behind. No such bound holds for a single call: one insertion can rehash and relocate every element.", "quantifier": "every configuration (hash, equality, group implementation, set or map), every initial bucket count, every finite history of insertions of all kinds, look-ups, erasures, erase_if, extract, node insertion, toggling, ranges, clear, reserve and rehash with non-zero arguments", "why_tests_cant": "An amortised bound is a statement about all histories: tests measure a few, and the bad cases (tombstones that never go away, rehashing without growing again and again) need adversarial interleavings of insertions and erasures.", "anchors": [{"file": "include/gtl/phmap.hpp", "symbols": ["raw_hash_set::resize", "raw_hash_set::drop_deletes_without_resize", "raw_hash_set::rehash_and_grow_if_necessary", "raw_hash_set::prepare_insert", "raw_hash_set::rehash", "raw_hash_set::reserve"]}]}
{"id": "C84", "title": "Growing a vector element by element moves a constant number of elements per element added, over any history", "statement": "From any state of a program, over any sequence of insertions and removals on a gtl::vector (push_back, emplace_back, insert and emplace of one element, of copies, of a forward range, at any position; pop_back, erase, erase_if, clear, assignments to elements), mixed with any use of other vectors, the elements that change buffer are in all at most three times the elements added plus the size at the beginning, and reading through data() and capacity() shows when. There is no such bound for resize: growing by one element at a time with resize moves every element every time.", "quantifier": "every element type (size, copy, move and exception traits), every reachable state of any number of vectors, every finite sequence of operations that end normally, any number and any length", "why_tests_cant": "An amortised bound speaks of all interleavings of insertions, removals and positions; a test measures one of them, and a growth policy that is right for one size class (three are used) can be wrong for another.", "anchors": [{"file": "include/gtl/vector.hpp", "symbols": ["vector::computePushBackCapacity", "vector::computeInsertCapacity", "vector::emplace_back_aux", "vector::do_real_insert", "vector::resize", "vector::reserve"]}]}
{"id": "C85", "title": "The B-tree containers compare keys a logarithmic number of times, and no more than once or twice where the place is known", "statement": "In every history of calls on a btree_set, btree_map, btree_multiset or btree_multimap, each call of the history invokes the comparison at most: for find, contains, lower_bound, upper_bound, insert, extract(key), and for erase(key) and count without duplicates, one search of a node for each level, at most log2(size + 1) nodes, plus one comparison; twice that for equal_range, and for count and erase(key) with duplicates; for insertion with a hint three more than an insertion, but two if the value belongs right before the hint; for the insertion of a range one more than an insertion for each value, but one for each value if the values are sorted and come after all elements; and not at all for everything that goes by iterators (erase of an iterator or range, extract(iterator), erase_if, iteration, size, clear).", "quantifier": "every strict weak order, every number of values per node from 3, linear and binary search, plain and three-way comparison, with and without duplicates, every finite sequence of allowed calls", "why_tests_cant": "A test counts comparisons for some sizes and orders of insertion; a bound for all histories needs that removals in any order leave the tree balanced and that no path, hint or range makes more.", "anchors": [{"file": "include/gtl/btree.hpp", "symbols": ["btree_node::lower_bound", "btree_node::upper_bound", "btree_node::linear_search_impl", "btree_node::binary_search_impl", "btree::internal_locate", "btree::internal_find", "btree::insert_unique", "btree::insert_multi", "btree::insert_hint_unique", "btree::insert_hint_multi", "btree::insert_iterator_unique", "btree::insert_iterator_multi", "btree::erase_unique", "btree::erase_multi"]}]}
{"id": "C86", "title": "A moved-from bit vector is a valid vector, and a move hands over all bits", "statement": "Moving a bit_vector into another one (construction or assignment) gives the target all bits of the source and changes no third vector. The source stays usable: it can be assigned to, swapped, resized, moved again or destroyed, and calls that respect the size it reports have defined behaviour.", "quantifier": "every history of calls and moves on any number of vectors, and whatever std::vector leaves in the source of a move assignment", "why_tests_cant": "A test uses a moved-from vector in a few ways, with one standard library; undefined reads past an empty buffer often go unnoticed.", "anchors": [{"file": "include/gtl/bit_vector.hpp", "symbols": ["bitv::vec", "bitv::storage", "vec::resize", "vec::swap"]}]}
{"id": "C87", "title": "A hash function that throws", "statement": "If the hash function throws in a call on a hash container, nothing is undefined: the call throws, the container can be used, cleared and destroyed, it contains no element that was not put in, none twice and none changed, and no element is lost: lookups, iteration and size() answer as if the call had not been made (an insertion of a range may have inserted a part of the range).", "quantifier": "every history of calls, any number of calls in which the hash function throws, and every point at which it can throw in them", "why_tests_cant": "The exception has to come at a chosen call of the hash function, inside a growing table or one that is rehashed in place; a test that throws once on a small table sees only the hash of the key.", "anchors": [{"file": "include/gtl/phmap.hpp", "symbols": ["raw_hash_set::resize", "raw_hash_set::drop_deletes_without_resize", "raw_hash_set::rehash_and_grow_if_necessary", "raw_hash_set::find_or_prepare_insert", "raw_hash_set::prepare_insert", "raw_hash_set::rehash", "raw_hash_set::raw_hash_set"]}]}
{"id": "C88", "title": "A comparison that throws in B-tree containers", "statement": "If the comparison of keys throws in a call on a B-tree container, nothing is undefined and no container is damaged: the call throws, and all containers are as they were before it, with the same iterators; only an insertion of a range may have inserted a beginning of the range, and a merge may have treated a beginning of the source. No element is lost and none is in two containers. Copying and assigning never throw.", "quantifier": "every strict weak order, node size and kind of search, with and without duplicates, every history of calls on several containers, any number of calls in which the comparison throws, and every comparison at which it can throw", "why_tests_cant": "The exception has to come at a chosen comparison of a chosen call in a tree of a chosen shape; a test throws at a few points of a few trees.", "anchors": [{"file": "include/gtl/btree.hpp", "symbols": ["btree::insert_unique", "btree::insert_hint_unique", "btree::insert_iterator_unique", "btree::insert_multi", "btree::insert_hint_multi", "btree::insert_iterator_multi", "btree::erase_unique", "btree::erase_multi", "btree::copy_or_move_values_in_order", "btree_set_container::merge", "btree_multiset_container::merge"]}]}
{"id": "C89", "title": "Memory goes back to the allocator it came from", "statement": "With allocators that have state and compare unequal: every block is given back to the allocator that handed it out and when no containers are left nothing is outstanding, and containers have the allocator that the standard says: a copy that of select_on_container_copy_construction, a moved one that of its source, a constructor with an allocator that one, and assignments and swap take the allocator of the other container exactly if the propagate_on_container traits say so, while the elements arrive in any case.", "quantifier": "all allocator types (any equality, any values of the three traits, any select_on_container_copy_construction and default allocator), every history of constructions, copies, moves, assignments, swaps, destructions and ordinary calls on any number of containers, every number of submaps", "why_tests_cant": "Eight combinations of traits times histories with equal and unequal allocators; the tests use one allocator with one set of traits.", "anchors": [{"file": "include/gtl/phmap.hpp", "symbols": ["raw_hash_set::raw_hash_set", "raw_hash_set::operator=", "raw_hash_set::move_assign", "raw_hash_set::swap", "parallel_hash_set::parallel_hash_set", "parallel_hash_set::operator=", "parallel_hash_set::swap"]}, {"file": "include/gtl/btree.hpp", "symbols": ["btree::btree", "btree::operator=", "btree::swap"]}, {"file": "include/gtl/vector.hpp", "symbols": ["vector::vector", "vector::operator=", "vector::moveFrom", "vector::swap"]}]}
{"id": "C90", "title": "Hash containers with a user supplied allocator never read through their null pointer", "statement": "A hash container whose allocator is not the library default (whose memory-less state is a null pointer instead of a static block) gives, in every history of calls, exactly the answers, sizes, capacities and iteration order of the same container with the default allocator, and never reads through the null pointer: lookups, iteration, comparison, copies, merges, insertions and destruction all work on containers that own no memory, whether new, moved from or emptied.", "quantifier": "all element and key types, hash and equality functions meeting the contract, the three group implementations, every history of calls on any number of containers", "why_tests_cant": "A missed test of the pointer crashes only in one call on one kind of empty container; tests run with the default allocator, where the pointer is never null.", "anchors": [{"file": "include/gtl/phmap.hpp", "symbols": ["EmptyGroup", "raw_hash_set::iterator::skip_empty_or_deleted", "raw_hash_set::find_impl", "raw_hash_set::_find_key", "raw_hash_set::has_element", "raw_hash_set::prepare_insert", "raw_hash_set::destroy_slots", "raw_hash_set::raw_hash_set"]}]}
{"id": "C91", "title": "Callbacks that throw while other threads use the container", "statement": "When callbacks passed to the thread safe calls of a parallel container (if_contains, modify_if, erase_if by key, the callback for an existing element of try_emplace_l and lazy_emplace_l) throw, the exception reaches the caller, the lock is released, other threads can go on and never deadlock, and the history of calls, answers and exceptions is linearizable: a callback that throws leaves behind what it did to its element and nothing else, a predicate that throws erases nothing, and contents and size are right afterwards. A constructor callback of lazy_emplace_l that throws leaves the container as it was.", "quantifier": "all element and key types, hash and equality functions meeting the contract, numbers of submaps, threads, calls, callbacks and elements on which they throw, schedules, and ways to cut the code of a critical section into atomic actions", "why_tests_cant": "Which thread waits or runs at the moment of the exception depends on the schedule; a lock left behind shows only when another thread wants it.", "anchors": [{"file": "include/gtl/phmap.hpp", "symbols": ["parallel_hash_set::modify_if_impl", "parallel_hash_set::if_contains", "parallel_hash_set::erase_if_impl", "parallel_hash_set::lazy_emplace_l", "parallel_hash_map::try_emplace_l", "LockableBaseImpl"]}]}
{"id": "C92", "title": "Everything done to a shared object happens before its deletion", "statement": "When threads share objects through intrusive_ptr with the thread safe counter, every access of any thread to an object (through its pointers, including copying and destroying pointers) happens before its deletion in the sense of the C++ memory model, whichever thread deletes it: the deletion races with nothing and sees everything written before. An owner to whom use_count() returns 1 is the only owner, and everything other threads did to the object happens before that call.", "quantifier": "any number of threads and objects, all programs that use an object only through pointers the thread owns, all executions", "why_tests_cant": "Missing synchronisation shows only on weakly ordered processors, in rare interleavings, and often without a visible failure.", "anchors": [{"file": "include/gtl/intrusive.hpp", "symbols": ["thread_safe_counter", "intrusive_ref_counter", "intrusive_ptr_add_ref", "intrusive_ptr_release", "intrusive_ref_counter::use_count"]}]}
{"id": "C93", "title": "Thread safe calls have no data races", "statement": "When any number of threads use parallel containers through the functions documented as thread safe (calls on one key, also with callbacks that throw, and calls on whole containers such as for_each, clear, merge, swap, rehash, ==), with a real mutex of any kind, or share an lru_cache, then any two accesses of different threads to the same part of a container, one of which may change it, are ordered by happens-before in the sense of the C++ memory model: there is no data race.", "quantifier": "all contents, any number of threads, containers, calls and schedules, every way the code between lock and unlock is cut into memory accesses", "why_tests_cant": "A data race is undefined behaviour even when every test passes; sanitizers see only the schedules that were run.", "anchors": [{"file": "include/gtl/phmap.hpp", "symbols": ["LockableImpl", "LockableBaseImpl", "NullMutex", "parallel_hash_set::find_ptr", "parallel_hash_set::modify_if_impl", "parallel_hash_set::erase_if_impl", "parallel_hash_set::for_each", "parallel_hash_set::merge", "parallel_hash_set::swap"]}, {"file": "include/gtl/lru_cache.hpp", "symbols": ["lru_cache::get", "lru_cache::insert", "lru_cache::exists"]}]}
{"id": "C94", "title": "Containers with hash function objects of their own", "statement": "Containers of one type may hold different hash function objects (for example with different seeds). The answers do not depend on them: merge, == and all other calls treat containers with different functions as collections of elements. Copies, moves and swaps take the function along and hash_function() returns it. A container that was moved from is empty and goes on working with its function.", "quantifier": "all classes of function objects (what they compute, whether they throw, what a move leaves of them), all elements, all histories over any number of containers with copy, move construction and assignment, swap, merge, comparison", "why_tests_cant": "The order of insertions, the capacities and the two functions decide where elements are and which of the two functions is used; unit tests use stateless functions.", "anchors": [{"file": "include/gtl/phmap.hpp", "symbols": ["raw_hash_set::raw_hash_set", "raw_hash_set::move_assign", "raw_hash_set::swap", "raw_hash_set::merge", "raw_hash_set::operator==", "raw_hash_set::hash_function", "parallel_hash_set::merge", "parallel_hash_set::operator==", "parallel_hash_set::hash_ref"]}]}
{"id": "C95", "title": "B-tree containers with comparison objects of their own", "statement": "Sorted containers of one type may hold different comparison objects (one sorts up, another down). Every container has its elements in its own order: copies, moves and swaps take the comparison along and key_comp() returns it, merge inserts in the order of the destination whatever the order of the source, == and < compare the sequences. A container that was moved from is empty and goes on working with its comparison.", "quantifier": "all classes of comparison objects that are strict weak orders (and what a move leaves of them), all elements, all histories over any number of containers with copy, move construction and assignment, swap, merge, comparison", "why_tests_cant": "Which comparison a tree is in depends on the whole history of copies, moves, swaps and merges; unit tests use stateless comparisons.", "anchors": [{"file": "include/gtl/btree.hpp", "symbols": ["btree::btree", "btree::operator=", "btree::swap", "btree::key_comp", "btree_set_container::merge", "btree_multiset_container::merge", "btree_container::operator=="]}]}
{"id": "C96", "title": "B-tree containers verify, and their statistics are right", "statement": "As long as no exception left a call, verify() never fails an assertion, whatever was done to the container. The height that the tree reports is 0 for empty containers and else the number of nodes on the way from the root to any leaf; the numbers of leaves, inner nodes and bytes are those of the memory that is allocated; fullness is at most 1, and computing the overhead never wraps below zero.", "quantifier": "all comparisons that are strict weak orders, all sizes of nodes, all histories over any number of containers with copies, moves, swaps and merges", "why_tests_cant": "verify() walks the whole tree and checks all links and the order of all keys; whether it succeeds depends on every split, merge and rebalancing before.", "anchors": [{"file": "include/gtl/btree.hpp", "symbols": ["btree::verify", "btree::internal_verify", "btree::height", "btree::internal_stats", "btree::leaf_nodes", "btree::internal_nodes", "btree::nodes", "btree::bytes_used", "btree::fullness", "btree::overhead"]}]}
{"id": "C97", "title": "Results do not depend on where the tables are in memory", "statement": "With GTL_NON_DETERMINISTIC defined, the order of iteration of the hash containers varies with the addresses that the allocator returns. Nothing else does: whatever addresses it returns, every history of calls on any number of containers, with copies, moves, swaps, merges and comparisons, gives the answers of the mathematical set or map, the same answers as without the macro, and iteration visits the same elements.", "quantifier": "all key types with an equivalence and a hash that respects it, all group implementations, all functions from allocations to addresses, all histories", "why_tests_cant": "addresses are chosen by the allocator and change with every growth; a wrong start of one search, after a move, a swap or in the middle of a growth, shows only for certain addresses and hashes.", "anchors": [{"file": "include/gtl/phmap.hpp", "symbols": ["HashSeed", "H1", "raw_hash_set::probe", "raw_hash_set::resize", "raw_hash_set::drop_deletes_without_resize", "raw_hash_set::swap", "raw_hash_set::merge"]}, {"file": "docs/hmap.md", "symbols": ["GTL_NON_DETERMINISTIC"]}]}
{"id": "C98", "title": "B-tree containers with string keys are in dictionary order", "statement": "B-tree containers whose keys are std::string or std::string_view replace the comparison std::less or std::greater by a three-way comparison of their own and search with it. They do and answer, for every history, what a sequence sorted by the named comparison does; iterating gives the keys in the order of the dictionary (bytes compared without sign, a prefix before its continuations), reversed with std::greater.", "quantifier": "all strings of bytes (also empty ones and ones with zero bytes), all node sizes, with and without duplicates, both comparisons, all histories", "why_tests_cant": "the order of strings is over an infinite domain, and the searches with three-way comparisons stop early at inner nodes, at depths that depend on the history.", "anchors": [{"file": "include/gtl/btree.hpp", "symbols": ["StringBtreeDefaultLess", "StringBtreeDefaultGreater", "key_compare_to_adapter", "compare_result_as_ordering", "compare_result_as_less_than", "upper_bound_adapter"]}]}
{"id": "C99", "title": "Number of buckets and load factor of hash containers", "statement": "The load factor of a hash container never exceeds 1, nor 7/8 once it has 7 or more buckets (counting one more bucket). The number of buckets is bounded by the peak: if no container of a history ever holds more than P elements and no call asks for room for more than P, no container ever has more than 32/7 P buckets (16/7 P when nothing is erased), however long elements are erased and inserted. An insertion leaves the bucket count or takes it from c to 2c+1, and then the table is still 7/32 full (7/16, the documented 0.4375, when nothing was erased). Buckets are never given back by a call that was not asked to.", "quantifier": "all hash and equality functions, all sequences of calls on any number of containers including copies, moves, swaps and merges, all group implementations", "why_tests_cant": "whether memory stays bounded is a question about unbounded histories, and erasures leave tombstones whose number depends on the whole history and on the hash values.", "anchors": [{"file": "include/gtl/phmap.hpp", "symbols": ["rehash_and_grow_if_necessary", "prepare_insert", "CapacityToGrowth", "GrowthToLowerboundCapacity", "NormalizeCapacity", "reserve", "rehash", "bucket_count", "load_factor", "merge"]}, {"file": "docs/phmap.md", "symbols": ["load_factor()"]}]}
