{"id": "C01", "title": "Live blocks never overlap", "statement": "On an allocation chain built over user-supplied buffers, at every point of every history of alloc, aligned alloc, free, realloc and refill calls (with the client writing anything inside its own blocks), the byte ranges of the blocks that were returned and not yet freed are pairwise disjoint.", "quantifier": "every history of API calls and client writes, every size, every power-of-two boundary, every set of 16-aligned disjoint buffers", "why_tests_cant": "overlap depends on the whole history of splits and merges; the history space is infinite and one missed header update shows only for particular orders of frees", "anchors": ["src/sctk_allocator.c: sctk_alloc_chain_alloc_align", "src/sctk_allocator.c: sctk_alloc_chain_free", "src/sctk_allocator.c: sctk_alloc_split_free_bloc", "src/sctk_allocator.c: sctk_alloc_merge_chunk"]}
{"id": "C02", "title": "Blocks lie inside the supplied memory and outside the allocator's own data", "statement": "Every block returned by a chain lies entirely inside one of the buffers given to that chain and shares no byte with anything the allocator later reads (headers, free-list links, end marks, pad headers); so whatever the client writes inside its blocks, the results of later calls do not change.", "quantifier": "every reachable chain state, every returned block, every client write inside live blocks", "why_tests_cant": "a test writes a few patterns in a few blocks; independence from all client data is a statement about all memories", "anchors": ["src/sctk_allocator.c: sctk_alloc_chain_alloc_align", "src/sctk_allocator.c: sctk_alloc_chain_prepare_and_reg_macro_bloc", "src/sctk_allocator.c: sctk_alloc_create_stopper", "src/sctk_alloc_inlined.h: sctk_alloc_setup_large_header"]}
{"id": "C03", "title": "A non-NULL block is as large as requested", "statement": "If an allocation of n bytes returns a non-NULL pointer, the n bytes starting there belong to the caller alone.", "quantifier": "every request size from 1 to SIZE_MAX, every reachable state", "why_tests_cant": "only extreme sizes and specific residues expose wrap-around; the whole 64-bit range cannot be enumerated", "anchors": ["src/sctk_allocator.c: sctk_alloc_calc_chunk_size", "src/sctk_allocator.c: sctk_alloc_find_free_chunk", "src/sctk_allocator.c: sctk_alloc_chain_alloc_align"]}
{"id": "C04", "title": "The allocator never modifies live user data", "statement": "No chain call changes any byte of a block that is live before and after the call.", "quantifier": "every reachable state, every call, every byte of every live block", "why_tests_cant": "a corruption touches one byte of one block after one particular history; tests sample", "anchors": ["src/sctk_allocator.c: sctk_alloc_chain_alloc_align", "src/sctk_allocator.c: sctk_alloc_chain_free", "src/sctk_allocator.c: sctk_alloc_free_list_insert", "src/sctk_allocator.c: sctk_alloc_free_list_remove"]}
{"id": "C05", "title": "Requested alignment is honoured", "statement": "An aligned allocation with a power-of-two boundary returns a pointer that is a multiple of the boundary, with the full requested size available after it; without boundary every pointer is 16-aligned if the buffer is.", "quantifier": "every power of two boundary, every size, every reachable state", "why_tests_cant": "the pad depends on the address the free list happens to yield", "anchors": ["src/sctk_allocator.c: sctk_alloc_setup_chunk_padded", "src/sctk_allocator.c: sctk_alloc_chain_alloc_align"]}
{"id": "C06", "title": "Valid histories never abort, loop forever or touch memory outside the chain's memory", "statement": "If the client only frees or reallocates live pointers and only writes inside live blocks, every chain call terminates normally; no fatal check fires and the allocator accesses only the chain structure and the supplied buffers.", "quantifier": "every valid history of calls on a chain over user-supplied buffers", "why_tests_cant": "termination and absence of wild accesses over unbounded histories is not observable by running finitely many of them", "anchors": ["src/sctk_allocator.c: sctk_alloc_chain_alloc_align", "src/sctk_allocator.c: sctk_alloc_chain_free", "src/sctk_allocator.c: sctk_alloc_find_adapted_free_chunk", "src/sctk_allocator.c: sctk_alloc_merge_chunk"]}
{"id": "C07", "title": "Freeing everything restores the initial capacity", "statement": "With merging enabled, once all blocks are freed, in any order, each buffer is again one single free chunk covering it, the chain reports that it can be destroyed, and the largest allocation possible on a fresh chain succeeds again.", "quantifier": "every history that ends with no live block", "why_tests_cant": "fragmentation leftovers depend on the order of the frees (n! orders)", "anchors": ["src/sctk_allocator.c: sctk_alloc_merge_chunk", "src/sctk_allocator.c: sctk_alloc_chain_free", "src/sctk_allocator.c: sctk_alloc_chain_can_destroy"]}
{"id": "C08", "title": "Adjacent free memory is always coalesced", "statement": "With merging enabled, in every reachable state no two neighbouring chunks of a buffer are both free.", "quantifier": "every reachable state of a chain without the no-merge flag", "why_tests_cant": "needs an invariant over all histories", "anchors": ["src/sctk_allocator.c: sctk_alloc_merge_chunk", "src/sctk_allocator.c: sctk_alloc_split_free_bloc"]}
{"id": "C09", "title": "Allocation succeeds whenever a large enough free chunk exists", "statement": "If some free chunk of the chain can hold the request (request plus header not larger than the chunk), the allocation does not return NULL.", "quantifier": "every reachable state, every request size, every free chunk, including chunks larger than 2 MB", "why_tests_cant": "the search looks in one list, then larger classes, then one smaller class; a hole in that order shows only for particular class/size combinations", "anchors": ["src/sctk_allocator.c: sctk_alloc_find_free_chunk", "src/sctk_allocator.c: sctk_alloc_find_first_free_non_empty_list", "src/sctk_allocator.c: sctk_alloc_get_free_list_fast", "src/sctk_allocator.c: sctk_alloc_free_list_insert"]}
{"id": "C10", "title": "A failing allocation has no effect", "statement": "On a chain without memory source, an allocation that returns NULL leaves the whole memory and the chain unchanged.", "quantifier": "every reachable state and request for which NULL is returned", "why_tests_cant": "needs equality of all memory for all states", "anchors": ["src/sctk_allocator.c: sctk_alloc_chain_alloc_align", "src/sctk_allocator.c: sctk_alloc_find_free_chunk"]}
{"id": "C11", "title": "free ignores NULL and foreign pointers", "statement": "Freeing NULL or a pointer whose preceding byte does not carry the header magic changes nothing (in the default non-strict configuration).", "quantifier": "every state, every such pointer", "why_tests_cant": "quantifies over all memory contents", "anchors": ["src/sctk_allocator.c: sctk_alloc_chain_free", "src/sctk_alloc_inlined.h: sctk_alloc_get_chunk"]}
{"id": "C12", "title": "Double free is detected", "statement": "Freeing a block twice in a row makes the second call abort instead of corrupting the heap.", "quantifier": "every reachable state, every live block freed twice without another call in between", "why_tests_cant": "detection depends on the neighbours of the block at the time of the first free", "anchors": ["src/sctk_allocator.c: sctk_alloc_chain_free", "src/sctk_allocator.c: sctk_alloc_merge_chunk"]}
{"id": "C13", "title": "realloc keeps the data", "statement": "A successful chain realloc returns a block whose first min(old size, new size) bytes equal those of the old block.", "quantifier": "every reachable state, every live block, every new size, every content", "why_tests_cant": "depends on the path taken (in place or move) and on data", "anchors": ["src/sctk_allocator.c: sctk_alloc_chain_realloc"]}
{"id": "C14", "title": "realloc returns a block as large as requested", "statement": "A non-NULL result of realloc(ptr, n) has n bytes available for the caller, whatever allocation function produced ptr.", "quantifier": "every reachable state, every live block including aligned ones, every new size", "why_tests_cant": "needs the combination of a padded block and a particular new size", "anchors": ["src/sctk_allocator.c: sctk_alloc_chain_realloc", "src/sctk_alloc_inlined.h: sctk_alloc_get_unpadded_size"]}
{"id": "C15", "title": "realloc failure keeps the old block", "statement": "If realloc(ptr, n) with n > 0 returns NULL, the old block is still live and unmodified.", "quantifier": "every reachable state with not enough memory", "why_tests_cant": "out-of-memory paths are rarely exercised and the old block's later reuse is history dependent", "anchors": ["src/sctk_allocator.c: sctk_alloc_chain_realloc", "src/sctk_alloc_posix.c: sctk_realloc_inter_chain"]}
{"id": "C16", "title": "Size class lookup is exact", "statement": "For every chunk size from 32 bytes up to 2 MB the constant-time lookup yields the smallest class that is at least the size, agreeing with the binary search; both always terminate.", "quantifier": "every 64-bit chunk size", "why_tests_cant": "2^64 sizes; tests probe boundaries only", "anchors": ["src/sctk_allocator.c: sctk_alloc_reverse_analytic_free_size", "src/sctk_allocator.c: sctk_alloc_get_free_list_fast", "src/sctk_allocator.c: sctk_alloc_get_free_list_slow"]}
{"id": "C17", "title": "Header fields round-trip and do not disturb each other", "statement": "Writing a chunk header and reading it back yields the written size, previous size, state, type and magic for all values that fit in 56 bits, and updating one field leaves the other fields and all other bytes unchanged.", "quantifier": "every address, every field value, every memory", "why_tests_cant": "bit-field packing has 2^128 header values", "anchors": ["src/sctk_alloc_inlined.h: sctk_alloc_setup_large_header", "src/sctk_alloc_inlined.h: sctk_alloc_set_chunk_header_large_size", "src/sctk_alloc_inlined.h: sctk_alloc_set_chunk_header_large_previous_size", "src/sctk_alloc_inlined.h: sctk_alloc_set_chunk_header_padded_padding"]}
{"id": "C18", "title": "An aligned pointer leads back to its chunk", "statement": "From the pointer returned by an aligned allocation the allocator recovers exactly the chunk it was cut from, for every boundary.", "quantifier": "every chunk address, every boundary greater than 1 (power of two or not)", "why_tests_cant": "one failing (address, boundary) pair is enough and the space is infinite", "anchors": ["src/sctk_allocator.c: sctk_alloc_setup_chunk_padded", "src/sctk_alloc_inlined.h: sctk_alloc_get_chunk_unpadded", "src/sctk_alloc_inlined.h: sctk_alloc_unpadd_vchunk"]}
{"id": "C19", "title": "Address lookup finds the owner of every managed pointer", "statement": "After any history of registrations and unregistrations of disjoint macro blocs whose sizes are multiples of 2 MB (at any page-aligned address), looking up an address strictly inside a registered bloc returns that bloc, and looking up an address outside all of them returns nothing.", "quantifier": "every set of disjoint blocs, every address, every registration history", "why_tests_cant": "blocs straddle 2 MB slots in arbitrary ways; the answer for one address depends on two slots", "anchors": ["src/sctk_allocator.c: sctk_alloc_region_get_macro_bloc", "src/sctk_allocator.c: sctk_alloc_region_set_entry", "src/sctk_allocator.c: sctk_alloc_region_unset_entry", "src/sctk_allocator.c: sctk_alloc_region_get_entry"]}
{"id": "C20", "title": "Registering a bloc never fails and never disturbs others", "statement": "Registering a macro bloc disjoint from the registered ones never triggers the fatal 'multiple usage' check, and (un)registering a bloc does not change the answer for addresses of other blocs.", "quantifier": "every set of disjoint 2 MB-multiple blocs", "why_tests_cant": "slot sharing between neighbours occurs only for particular offsets", "anchors": ["src/sctk_allocator.c: sctk_alloc_region_set_entry", "src/sctk_allocator.c: sctk_alloc_region_unset_entry"]}
{"id": "C21", "title": "The memory source never hands out the same memory twice", "statement": "Macro blocs obtained from the light memory source and not given back are pairwise disjoint and disjoint from the blocs kept in its cache, for every history of requests, frees and inserted segments, given that the OS returns fresh mappings.", "quantifier": "every history, every request size, every sequence of OS answers that are fresh", "why_tests_cant": "depends on cache history", "anchors": ["src/sctk_alloc_light_mm_source.c: sctk_alloc_mm_source_light_request_memory", "src/sctk_alloc_light_mm_source.c: sctk_alloc_mm_source_light_find_in_cache", "src/sctk_alloc_light_mm_source.c: sctk_alloc_mm_source_light_free_memory"]}
{"id": "C22", "title": "The memory source returns blocs of the exact requested size and its accounting is exact", "statement": "Each bloc has exactly the requested size recorded in its header; the cached-size figure equals the sum of the sizes of cached blocs and the bloc counter equals the number of blocs handed out and not returned.", "quantifier": "every history of requests, frees and inserted segments", "why_tests_cant": "accounting drift accumulates over histories", "anchors": ["src/sctk_alloc_light_mm_source.c: sctk_alloc_mm_source_light_request_memory", "src/sctk_alloc_light_mm_source.c: sctk_alloc_mm_source_light_reg_in_cache", "src/sctk_alloc_light_mm_source.c: sctk_alloc_mm_source_light_mmap_new_segment"]}
{"id": "C23", "title": "The memory kept in cache is bounded", "statement": "When only freed blocs enter the cache, the cached memory never exceeds keep_mem + keep_max bytes, and no cached bloc is larger than keep_max.", "quantifier": "every history, every configuration of keep_mem and keep_max", "why_tests_cant": "bound over all histories", "anchors": ["src/sctk_alloc_light_mm_source.c: sctk_alloc_mm_source_light_keep", "src/sctk_alloc_light_mm_source.c: sctk_alloc_mm_source_light_free_memory"]}
{"id": "C24", "title": "A chain with a memory source gives back every macro bloc", "statement": "On a chain fed by a memory source, once all blocks are freed every macro bloc obtained from the source has been returned to it.", "quantifier": "every history of allocs and frees ending with no live block, every size including those around the 1 MB huge limit", "why_tests_cant": "the leak appears for 16 of the 2^64 sizes", "anchors": ["src/sctk_allocator.c: sctk_alloc_chain_free", "src/sctk_allocator.c: sctk_alloc_chain_free_macro_bloc", "src/sctk_allocator.c: sctk_alloc_chain_is_huge_size", "src/sctk_allocator.c: sctk_alloc_chain_request_mem"]}
{"id": "C25", "title": "Remote frees are neither lost nor duplicated", "statement": "For every interleaving of any number of threads pushing blocks to a chain's remote free queue with the owner draining it, each pushed block is delivered to the owner exactly once, and the queue's chaining never loses or repeats a block.", "quantifier": "every interleaving of atomic steps, any number of producers, one consumer, any number of operations", "why_tests_cant": "interleavings are unbounded and schedule dependent", "anchors": ["src/sctk_alloc_mpscf_queue.h: sctk_mpscf_queue_insert", "src/sctk_alloc_mpscf_queue.h: sctk_mpscft_queue_dequeue_all", "src/sctk_alloc_mpscf_queue.h: sctk_mpscf_queue_wait_until_end_is"]}
{"id": "C26", "title": "Remote frees are delivered in insertion order", "statement": "Blocks are delivered in the order in which their pushes took effect; in particular two blocks pushed one after the other by the same thread are delivered in that order.", "quantifier": "every interleaving", "why_tests_cant": "order violations need particular schedules", "anchors": ["src/sctk_alloc_mpscf_queue.h: sctk_mpscf_queue_insert", "src/sctk_alloc_mpscf_queue.h: sctk_mpscft_queue_dequeue_all"]}
{"id": "C27", "title": "Draining the remote free queue terminates once pending pushes finish", "statement": "While draining, the owner never dereferences NULL and never leaves the chain of pushed blocks; once all pushes that started have finished their last step, the drain finishes in a number of steps bounded by the number of blocks.", "quantifier": "every interleaving; every point at which producers stop", "why_tests_cant": "liveness under all schedules", "anchors": ["src/sctk_alloc_mpscf_queue.h: sctk_mpscf_queue_wait_until_end_is"]}
{"id": "C28", "title": "The spinlock gives mutual exclusion", "statement": "At most one thread is between a successful lock (or trylock returning 0) and the following unlock; a thread that finds the lock free and is the only one running acquires it.", "quantifier": "every interleaving of any number of threads", "why_tests_cant": "schedules are unbounded", "anchors": ["src/sctk_alloc_internal_spinlock.h: sctk_alloc_internal_spinlock_lock", "src/sctk_alloc_internal_spinlock.h: sctk_alloc_internal_spinlock_trylock", "src/sctk_alloc_internal_spinlock.h: sctk_alloc_internal_spinlock_unlock"]}
{"id": "C29", "title": "Concurrent calls on a thread-safe chain behave like some sequential order", "statement": "On a chain flagged thread-safe, without memory source, concurrent alloc and free calls from any number of threads leave the chain and return results as if the calls had run one at a time in the order in which they took the lock.", "quantifier": "every interleaving of any number of threads", "why_tests_cant": "schedules are unbounded", "anchors": ["src/sctk_allocator.c: sctk_alloc_chain_alloc_align", "src/sctk_allocator.c: sctk_alloc_chain_free"]}
{"id": "C30", "title": "Blocks of different threads never overlap", "statement": "With per-thread chains, malloc'ed blocks of all threads are pairwise disjoint and a block freed by another thread becomes reusable only through its owner chain, for every history of malloc, memalign, free and remote free.", "quantifier": "every history over any number of threads' chains (calls taken one at a time)", "why_tests_cant": "cross-thread histories are unbounded", "anchors": ["src/sctk_alloc_posix.c: sctk_malloc", "src/sctk_alloc_posix.c: sctk_free", "src/sctk_allocator.c: sctk_alloc_chain_purge_rfq", "src/sctk_allocator.c: sctk_alloc_rfq_register"]}
{"id": "C31", "title": "calloc returns zeroed memory of the full product size", "statement": "calloc(n, s) returns NULL, or a block of n*s bytes all zero, for every n and s.", "quantifier": "every n and s in 64 bits", "why_tests_cant": "overflowing products and failure paths", "anchors": ["src/sctk_alloc_posix.c: sctk_calloc"]}
{"id": "C32", "title": "posix_memalign reports errors", "statement": "posix_memalign returns EINVAL exactly when the boundary is not a power of two multiple of sizeof(void*), ENOMEM when memory is exhausted, and otherwise 0 with an aligned non-NULL block.", "quantifier": "every boundary and size", "why_tests_cant": "whole domain of boundaries; out-of-memory", "anchors": ["src/sctk_alloc_posix_export.c: posix_memalign", "src/sctk_alloc_posix.c: sctk_posix_memalign", "src/sctk_alloc_posix_export.c: memalign"]}
{"id": "C33", "title": "A chain marked for destruction is destroyed exactly once, when its last bloc goes", "statement": "After marking a chain for destruction the handler is called exactly once, at the moment the chain holds no macro bloc any more, and the chain is not touched afterwards.", "quantifier": "every history of frees after marking, including an already empty chain", "why_tests_cant": "depends on the order of frees and on whether the last free is in the locked or huge path", "anchors": ["src/sctk_allocator.c: sctk_alloc_chain_mark_for_destroy", "src/sctk_allocator.c: sctk_alloc_chain_free_macro_bloc", "src/sctk_alloc_posix.c: sctk_alloc_posix_destroy_handler"]}
{"id": "C34", "title": "Round-robin selection is fair", "statement": "The k-th selected memory source is k modulo the number of nodes: in any window of n consecutive calls each of the n sources is selected exactly once, under any interleaving of callers.", "quantifier": "every number of nodes, every number of calls", "why_tests_cant": "unbounded call sequences", "anchors": ["src/sctk_alloc_posix.c: sctk_alloc_posix_source_round_robin"]}
{"id": "C35", "title": "Persistent-memory bump allocation is safe", "statement": "Blocks returned by the persistent-memory pool are pairwise disjoint and inside the pool, for every sequence of sizes.", "quantifier": "every sequence of sizes in 64 bits", "why_tests_cant": "wrap-around of the running size", "anchors": ["src/sctk_alloc_pmem.c: sctk_pmem_malloc"]}
{"id": "C36", "title": "A shared-segment chain does not overlap its own control structure", "statement": "A chain placed at the start of a shared segment only hands out blocks after its own structure, inside the segment.", "quantifier": "every segment size and address, every history", "why_tests_cant": "relies on the no-overlap invariant with the chain structure in the same buffer", "anchors": ["src/sctk_allocator.c: sctk_alloc_chain_shared_init", "src/sctk_allocator.c: sctk_alloc_chain_standalone_init"]}
{"id": "C37", "title": "The default memory source can serve its heap", "statement": "After initialising the default memory source over a heap of k macro blocs, requests up to its size succeed and initialisation terminates.", "quantifier": "every heap size that is a multiple of 2 MB", "why_tests_cant": "table driven search over all sizes", "anchors": ["src/sctk_allocator.c: sctk_alloc_mm_source_default_init", "src/sctk_allocator.c: sctk_alloc_mm_source_insert_segment", "src/sctk_allocator.c: sctk_alloc_get_free_list_slow", "src/sctk_allocator.c: SCTK_ALLOC_MMS_FREE_SIZES"]}
{"id": "C38", "title": "Chain statistics are truthful", "statement": "The statistics call reports the exact number of free chunks, their total, smallest and largest size, and leaves the chain usable.", "quantifier": "every reachable chain state", "why_tests_cant": "quantifies over all states", "anchors": ["src/sctk_allocator.c: sctk_alloc_chain_get_stat"]}
{"id": "C39", "title": "The reported usable size is exact", "statement": "For every live block, aligned or not, the size computed from its pointer is the number of bytes from the pointer to the end of its chunk, hence at least the requested size.", "quantifier": "every reachable state, every live block", "why_tests_cant": "depends on the pad", "anchors": ["src/sctk_alloc_posix.c: sctk_alloc_posix_get_size", "src/sctk_alloc_inlined.h: sctk_alloc_get_usable_size"]}
{"id": "C40", "title": "A freed block is immediately reusable", "statement": "After freeing a block, an allocation of the same size (or smaller) cannot fail, on a chain whose buffers are at most 2 MB.", "quantifier": "every reachable state, every live block", "why_tests_cant": "depends on merges and size classes", "anchors": ["src/sctk_allocator.c: sctk_alloc_chain_free", "src/sctk_allocator.c: sctk_alloc_find_free_chunk"]}
{"id": "C41", "title": "Cleanup of the memory source gives back exactly the cached blocs", "statement": "Once every bloc has been given back, cleaning up the light memory source ends and unmaps exactly the cached blocs and nothing else; with blocs still handed out it aborts.", "quantifier": "every history of requests, frees, inserted segments, other mappings and writes", "why_tests_cant": "depends on the cache built by the whole history", "anchors": ["src/sctk_alloc_light_mm_source.c: sctk_alloc_mm_source_light_cleanup"]}
{"id": "C42", "title": "A memory source reports that the system has no memory", "statement": "A request to the light memory source is served when the system has pages or a bloc of that size is cached, and otherwise reports the failure to its caller.", "quantifier": "every history and every answer of the operating system, including refusals", "why_tests_cant": "tests cannot make the system refuse memory at an arbitrary point of a history", "anchors": ["src/sctk_alloc_light_mm_source.c: sctk_alloc_mm_source_light_request_memory", "src/sctk_alloc_light_mm_source.c: sctk_alloc_mm_source_light_mmap_new_segment", "src/sctk_alloc_common.c: sctk_mmap"]}
{"id": "C43", "title": "The size of a block is at least the requested one", "statement": "For every live block of every thread, the size that the allocator computes from the pointer is at least the requested size, and that many bytes overlap no other block, nor the bytes that the allocator computes for another block.", "quantifier": "every history over any number of threads, with calls one at a time or interleaved, also when threads end while others run; every request size", "why_tests_cant": "sizes around the 2 MB rounding of huge blocks are a handful among 2^64", "anchors": ["src/sctk_alloc_posix.c: sctk_alloc_posix_get_size", "src/sctk_allocator.c: sctk_alloc_chain_request_mem"]}
{"id": "C44", "title": "Small blocks waste little memory", "statement": "A block of 16 bytes up to the huge limit of 1 MB takes at most 62 bytes more than requested, header included.", "quantifier": "every history over any number of threads, every size from 16 to 1048560 bytes without boundary", "why_tests_cant": "depends on the chunk found in the free lists, left by the whole history", "anchors": ["src/sctk_allocator.c: sctk_alloc_split_free_bloc", "src/sctk_alloc_posix.c: sctk_malloc"]}
{"id": "C45", "title": "realloc keeps the contents, whichever thread calls", "statement": "A realloc by any thread of a block of any thread returns a block that begins with the contents of the old one, up to the smaller size, and overlaps and changes no other live block.", "quantifier": "every history over any number of threads, every block and new size", "why_tests_cant": "the path depends on who owns the block, the free lists and the history", "anchors": ["src/sctk_alloc_posix.c: sctk_realloc", "src/sctk_alloc_posix.c: sctk_realloc_inter_chain"]}
{"id": "C46", "title": "Every thread gets a chain of its own", "statement": "From the start of the process on, the first call of a thread gets a chain structure, and the structures of the threads overlap neither each other nor any block of any thread.", "quantifier": "every history from the start of the process, any number of threads", "why_tests_cant": "the pool of structures runs out only after more than a thousand threads, and an overlap needs a particular history of the pool and of the memory source", "anchors": ["src/sctk_alloc_posix.c: sctk_alloc_posix_base_init", "src/sctk_alloc_posix.c: sctk_alloc_posix_create_new_tls_chain", "src/sctk_alloc_posix.c: sctk_alloc_posix_mmsrc_uma_init"]}
{"id": "C47", "title": "A destroyed chain is unregistered", "statement": "After the destruction of a chain no address leads to one of its blocs, and the addresses of the blocs of the other chains lead to the same blocs as before.", "quantifier": "every state of the regions, every chain and every address", "why_tests_cant": "needs blocs across a 1 TB boundary of the address space, and every neighbouring bloc", "anchors": ["src/sctk_allocator.c: sctk_alloc_chain_destroy", "src/sctk_alloc_region.c: sctk_alloc_region_del_chain"]}
{"id": "C48", "title": "The configuration from the environment is read as documented and usable", "statement": "The sizes, flags and factors in the environment variables become the values of the configuration, missing ones take their default, and with every configuration that is accepted all valid calls go through.", "quantifier": "every environment, every valid history of a chain", "why_tests_cant": "texts and numbers of any length; the failure is in a later realloc and not in the reading of the variable", "anchors": ["src/sctk_alloc_config.c: sctk_alloc_config_init", "src/sctk_alloc_config.c: sctk_alloc_get_size_from_env", "src/sctk_allocator.c: sctk_alloc_chain_realloc"]}
{"id": "C49", "title": "Calls of concurrent threads do not disturb each other", "statement": "When the calls of several threads interleave, the blocks of the client, the blocks that calls are working on and the blocks that wait in remote free queues are disjoint and in memory got from the kernel; no step is undefined or aborts while the kernel has memory; the contents of the client's blocks are kept; each call returns what it promises, as seen from the state in which it started; and when all blocks have been freed and the threads are back in the client the source has got back all its memory.", "quantifier": "any number of threads, every interleaving of the steps of malloc, memalign, calloc, realloc and free, of stores of the client and of new threads, any answers of the kernel", "why_tests_cant": "interleavings cannot be enumerated: any number of threads, of steps and of pending blocks", "anchors": ["src/sctk_alloc_posix.c: sctk_malloc", "src/sctk_alloc_posix.c: sctk_free", "src/sctk_alloc_posix.c: sctk_realloc_inter_chain", "src/sctk_allocator.c: sctk_alloc_chain_purge_rfq", "src/sctk_allocator.c: sctk_alloc_rfq_register"]}
{"id": "C50", "title": "A block freed by another thread is given back exactly once, by its owner", "statement": "A block that a thread frees while another thread owns it stays in the hands of the queue of its owner until the owner, and only the owner, frees it in a purge; the purge frees just the blocks that were registered, once each; and none is lost: if the owner finds its queue empty and nobody is registering a block with it, no block of it is waiting.", "quantifier": "any number of threads, every interleaving", "why_tests_cant": "the window between the two effects of a registration is a few instructions wide", "anchors": ["src/sctk_allocator.c: sctk_alloc_rfq_register", "src/sctk_allocator.c: sctk_alloc_chain_purge_rfq", "src/sctk_alloc_mpscf_queue.h: sctk_mpscf_queue_insert", "src/sctk_alloc_mpscf_queue.h: sctk_mpscft_queue_dequeue_all"]}
{"id": "C51", "title": "Calls of concurrent threads end", "statement": "From every state that concurrent threads can reach, a call ends when its thread runs alone, unless another thread is between the two effects of a registration with it; such a thread ends its own call with its next step; hence there is no deadlock.", "quantifier": "any number of threads, every reachable state", "why_tests_cant": "absence of an endless wait is over all the states in which threads may be stopped", "anchors": ["src/sctk_alloc_mpscf_queue.h: sctk_mpscf_queue_wait_until_end_is", "src/sctk_allocator.c: sctk_alloc_chain_purge_rfq", "src/sctk_alloc_posix.c: sctk_free"]}
{"id": "C52", "title": "A bloc registered by one of several threads is found afterwards", "statement": "When several threads register blocs and look them up, with the table of a region made at its first use, a bloc that was registered is in the table that lookups read, and lookups find it.", "quantifier": "any number of threads, every interleaving, any regions", "why_tests_cant": "the windows of the first use are a few instructions wide", "anchors": ["src/sctk_allocator.c: sctk_alloc_region_init", "src/sctk_allocator.c: sctk_alloc_region_setup", "src/sctk_allocator.c: sctk_alloc_region_get_entry", "src/sctk_allocator.c: sctk_alloc_region_set_entry"]}
{"id": "C53", "title": "The process starts up once and every thread gets a source that is set", "statement": "When several threads make their first call, the start-up is done once, each memory source is set once, no step fails, and each thread that goes on has a memory source that was set.", "quantifier": "any number of threads, every interleaving, builds with and without hwloc, any number of NUMA nodes up to 128, with and without round robin", "why_tests_cant": "the window between the publication of the start-up and its NUMA phase occurs once per process", "anchors": ["src/sctk_alloc_posix.c: sctk_alloc_posix_base_init", "src/sctk_alloc_posix.c: sctk_alloc_posix_mmsrc_numa_init_phase_numa", "src/sctk_alloc_posix.c: sctk_alloc_posix_get_local_mm_source", "src/sctk_alloc_posix.c: sctk_alloc_posix_source_round_robin"]}
{"id": "C54", "title": "NUMA statistics count each page once on its node", "statement": "The statistics of a segment count each page that has a byte of it once, the pages in memory as mapped and on the node where they are; the statistics of a chain do so for its blocs; the check reports exactly when the part of the pages on the given node is below the given ratio.", "quantifier": "every segment, chain and answers of the kernel, builds with and without the page map", "why_tests_cant": "overflows need segments of gigabytes; the answers of the kernel depend on its version and on libnuma", "anchors": ["src/sctk_alloc_numa_stat.c: sctk_alloc_numa_stat_cumul", "src/sctk_alloc_numa_stat.c: sctk_alloc_numa_stat_get_node_of_page", "src/sctk_alloc_numa_stat.c: sctk_alloc_numa_check", "src/sctk_allocator.c: sctk_alloc_chain_get_numa_stat"]}
{"id": "C55", "title": "Migration binds exactly the pages of the segment, chain or source to the node", "statement": "After the migration of a segment, of the structure or the content of a chain, or of a source, the pages with bytes of it are bound to the node, all others are as before, the parts that the caller did not ask for are not moved, -1 resets the binding, and a source asks for later memory on its new node.", "quantifier": "every segment (any alignment), every chain with any blocs, every source, every node", "why_tests_cant": "needs machines with several NUMA nodes; alignments and bloc lists are unbounded", "anchors": ["src/sctk_alloc_topology.c: sctk_alloc_migrate_numa_mem", "src/sctk_allocator.c: sctk_alloc_chain_numa_migrate_content", "src/sctk_allocator.c: sctk_alloc_chain_numa_migrate", "src/sctk_alloc_light_mm_source.c: sctk_alloc_mm_source_light_migrate"]}
{"id": "C56", "title": "Shared chain with a source used by interleaved threads: blocks disjoint, data kept, calls end, memory given back, blocs counted", "statement": "While threads allocate, free and resize blocks of one thread-safe chain that asks a source for memory (a chain of sctk_malloc_on_node), the blocks that they own share no byte, are aligned, hold what was stored in them and lead back to the chain; no step fails while the kernel has memory; at most one thread is between lock and unlock; no thread is stuck; once all blocks are freed all memory is back at the source; and the counter of blocs of the chain is the number of blocs that it has. A node number selects the chain of that node only.", "quantifier": "any number of threads, every interleaving of their steps (lock word, huge blocks without lock, the two halves of the counter update, the copy of realloc), every size and boundary, every answer of the kernel", "why_tests_cant": "interleavings of any number of threads; the lost update of the counter needs two threads between the read and the write", "anchors": ["src/sctk_alloc_on_node.c: sctk_malloc_on_node_init, sctk_malloc_on_node_get_chain", "src/sctk_allocator.c: sctk_alloc_chain_alloc_align, sctk_alloc_chain_free, sctk_alloc_chain_realloc", "src/sctk_allocator.c: sctk_alloc_chain_request_mem, sctk_alloc_chain_free_macro_bloc"]}
{"id": "C57", "title": "Threads that come and go: blocks outlive their thread, and each chain is released exactly when its last bloc goes", "statement": "While threads start, allocate, resize and free their own and each other's blocks, and end, the live blocks share no byte and keep their contents, whichever threads have ended; a block of a thread that has ended can be freed and resized by the others, and never waits in a queue; the chain of an ended thread is released at most once, exactly when its last bloc goes back, and is not used afterwards; the chains of running threads are never released; once no block is left all memory is back at the source.", "quantifier": "any number of threads that start and end at any time, every sequence of their calls, every size and boundary, every answer of the kernel", "why_tests_cant": "unbounded histories of threads that end in any order with blocks left behind; the use of the released chain only shows on the last free", "anchors": ["src/sctk_alloc_posix.c: sctk_alloc_posix_mark_current_for_destroy", "src/sctk_alloc_posix.c: sctk_alloc_posix_destroy_handler, sctk_free, sctk_realloc", "src/sctk_allocator.c: sctk_alloc_chain_mark_for_destroy, sctk_alloc_chain_free_macro_bloc, sctk_alloc_chain_free"]}
{"id": "C58", "title": "Threads that end while the others run: blocks are kept, each chain is released once, nothing is left behind", "statement": "While threads run at the same time, and some of them end (flag, handler, last purge) between the steps of the others, all blocks share no byte and lie in mapped memory; no step fails while the kernel has memory; nobody begins to push to the queue of a thread that has begun to end; after its last purge no block waits in the queue of the thread; its chain is released at most once, exactly when its last bloc goes back, and is not used afterwards; once no block is left all memory is back at the source.", "quantifier": "any number of threads that start and end at any time, every interleaving of their steps and of the steps of the end of a thread, every size and boundary, every answer of the kernel", "why_tests_cant": "the windows between the flag, the handler and the purge, and between the search of a chain and the push to its queue, are a few instructions; interleavings and numbers of threads are unbounded", "anchors": ["src/sctk_alloc_posix.c: sctk_alloc_posix_mark_current_for_destroy, sctk_free, sctk_realloc", "src/sctk_allocator.c: sctk_alloc_chain_mark_for_destroy, sctk_alloc_chain_make_thread_safe, sctk_alloc_chain_purge_rfq, sctk_alloc_chain_free_macro_bloc"]}
{"id": "C59", "title": "A memory source that is strict on a NUMA node hands out and keeps only memory bound to that node", "statement": "Whatever the history of requests, returns, insertions of segments by hand and other use of memory by the program, every byte of the blocs that a strict source has handed out and of those in its cache is bound to the node of the source. The source changes the binding of no other memory, and apart from the binding it behaves as in a build without hwloc.", "quantifier": "every node, every history of a source, every size, every answer of the kernel", "why_tests_cant": "needs a machine with several nodes, and looking at the policy of each page after histories of any length; the refusal of a binding leaves no trace", "anchors": ["src/sctk_alloc_light_mm_source.c: sctk_alloc_mm_source_light_init, sctk_alloc_mm_source_light_init_nodeset, sctk_alloc_force_segment_binding", "src/sctk_alloc_light_mm_source.c: sctk_alloc_mm_source_light_mmap_new_segment, sctk_alloc_mm_source_light_insert_segment, sctk_alloc_mm_source_light_cleanup, sctk_alloc_mm_source_light_migrate", "src/sctk_alloc_on_node.c: sctk_malloc_on_node_init"]}
{"id": "C60", "title": "A thread that is bound to one NUMA node uses the memory source of that node, and its chain follows it when it moves", "statement": "A thread whose cores are all on one node is given the memory source of that node; a thread without such a node is given the default source, or with round robin the next one. The source given is always one that was set. When a thread asks for migration after it has moved, the pages of its chain and of its blocs, and no others, are bound to its node, and its chain takes its memory from the source of that node and gives it back there.", "quantifier": "every machine of up to 128 nodes, every answer of hwloc, every combination of the options, every stage of the start-up, every chain", "why_tests_cant": "needs machines with several nodes and threads bound in all ways; a wrong choice of the source only costs locality and shows in no result", "anchors": ["src/sctk_alloc_topology.c: sctk_get_first_bit_in_bitmap, sctk_get_preferred_numa_node_no_mpc_numa_binding, sctk_get_preferred_numa_node_no_mpc_thread_binding, sctk_get_preferred_numa_node, sctk_alloc_init_on_numa_node", "src/sctk_alloc_posix.c: sctk_alloc_posix_get_local_mm_source, sctk_alloc_posix_numa_migrate_chain, sctk_alloc_posix_mmsrc_numa_init_node", "src/sctk_allocator.c: sctk_alloc_chain_numa_migrate"]}
{"id": "C61", "title": "sctk_hbw_malloc is served by an MCDRAM node whenever there is one", "statement": "sctk_hbw_malloc is served by the chain of an MCDRAM node if the machine has one (the last one), else by the chain of node 0, and by malloc on a machine without NUMA nodes; the choice never ends the program.", "quantifier": "every machine of up to 128 nodes with any kinds of memory", "why_tests_cant": "needs machines with high bandwidth memory in all arrangements", "anchors": ["src/sctk_alloc_topology.c: sctk_topology_mcdram_detection", "src/sctk_alloc_on_node.c: sctk_hbw_malloc, sctk_malloc_on_node_numa, sctk_malloc_on_node_get_chain"]}
{"id": "C62", "title": "A persistent memory pool is created with the size asked for or not at all, and nothing of it is left at the end", "statement": "sctk_pmem_create returns an empty pool of the size asked for, rounded up to pages, on a mapping of its own, with all other resources unchanged; or it returns NULL and leaves no resource behind. All blocks of the pool are disjoint and all their bytes are mapped. sctk_pmem_destroy gives all back. Blocks given back can be used again.", "quantifier": "every size in 64 bits, every failure of the system calls, every sequence of requests to the pool", "why_tests_cant": "failures of mmap and posix_fallocate, and the sizes that lose bytes in the conversion to float, are not met in tests; leaks show in no result", "anchors": ["src/sctk_alloc_pmem.c: sctk_pmem_create, sctk_pmem_destroy, get_file_type, create_tmp_file, declare_random_access, allocate_file_space, sctk_pmem_malloc, sctk_pmem_free", "src/sctk_alloc_pmem.h: SCTK_ROUNDUP"]}
{"id": "C63", "title": "A chain uses only the buffer that it was given, whatever the address and the size of the buffer", "statement": "A chain over a user buffer of more than 80 bytes (the check of sctk_alloc_chain_user_refill) gives blocks that are inside of the buffer and inside of their chunk, and writes nothing outside of the buffer and of its own structure. A request that does not fit gives NULL and changes nothing.", "quantifier": "every address and size of the buffer (up to 2 MB + 48), every content of the memory, every size of the request", "why_tests_cant": "tests use page aligned buffers of round sizes; a buffer of 100 bytes or an array of int shows the overflow only for few sizes of the request", "anchors": ["src/sctk_allocator.c: sctk_alloc_chain_user_refill 1046-1077, sctk_alloc_split_free_bloc 806-846, sctk_alloc_chain_alloc_align 1444-1529", "src/sctk_alloc_inlined.h: sctk_alloc_setup_chunk_padded"]}
{"id": "C64", "title": "The remote free queue is correct on processors that delay stores", "statement": "On a machine where the stores of every thread reach the memory later, in order, and where atomic swaps wait for the earlier stores of their thread (x86): no pushed block is lost or delivered twice, blocks are delivered in the order of the pushes, the owner never follows NULL, and it drains the queue in a bounded number of steps once the stores of the pushes have arrived. (Where a swap does not wait for earlier stores the queue loses blocks for ever, or the owner spins for ever; the write barrier in the code is commented out.)", "quantifier": "every interleaving of any number of threads and store buffers, any delayed stores of the program into blocks that the queue does not hold", "why_tests_cant": "needs stores delayed by the hardware at particular points; unbounded interleavings", "anchors": ["src/sctk_alloc_mpscf_queue.h: sctk_mpscf_queue_insert 145-170", "src/sctk_alloc_mpscf_queue.h: sctk_mpscft_queue_dequeue_all 202-239, the comment at 217-223", "src/sctk_allocator.c: sctk_alloc_rfq_register, sctk_alloc_chain_purge_rfq"]}
{"id": "C65", "title": "The spinlock protects data on processors that delay stores", "statement": "On a machine where the stores of every thread reach the memory later and in order: at most one thread has the lock, the thread that has it reads everywhere the value last stored by the threads that had it, and the lock becomes free when the stores of the thread that released it have arrived. (Where stores may arrive in another order this is false: the unlock is a plain store without barrier.)", "quantifier": "every interleaving of any number of threads and store buffers, any stores under the lock", "why_tests_cant": "needs stores delayed by the hardware at particular points; unbounded interleavings", "anchors": ["src/sctk_alloc_internal_spinlock.h: sctk_alloc_internal_spinlock_lock", "src/sctk_alloc_internal_spinlock.h: sctk_alloc_internal_spinlock_trylock", "src/sctk_alloc_internal_spinlock.h: sctk_alloc_internal_spinlock_unlock"]}
{"id": "C66", "title": "Deleting regions removes exactly what is asked and loses no header", "statement": "After any history of registrations, removals and deletions, the mapped region headers are exactly those of the existing regions, one each. Removing a chain from a region clears exactly the slots of that chain; a region is deleted, and its header given back, only when nothing is registered in it; deleting all leaves nothing; the clean-up of a default source removes exactly the registrations of its heap.", "quantifier": "every history of set-ups, registrations, removals, deletions and clean-ups; every heap", "why_tests_cant": "half a million slots per region, regions shared by chains and heaps that cross the limit of a region", "anchors": ["src/sctk_allocator.c: sctk_alloc_region_has_ref", "src/sctk_allocator.c: sctk_alloc_region_del_chain", "src/sctk_allocator.c: sctk_alloc_region_del", "src/sctk_allocator.c: sctk_alloc_region_del_all", "src/sctk_allocator.c: sctk_alloc_region_exist", "src/sctk_allocator.c: sctk_alloc_mm_source_default_cleanup"]}
{"id": "C67", "title": "The events of the hooks tell what the allocator does, and change nothing", "statement": "In the build with allocation hooks, each call does the same as in the build without. Each allocation and each free sends its event, with the pointer, the size of the chunk, and the size and boundary asked for; splits, merges and exchanges of blocs with the source send theirs, with true arguments. An observer that only receives the events knows at each time exactly the live blocks and their sizes.", "quantifier": "every subset of hooks that are set, every history of calls, every state and source", "why_tests_cant": "the hooks are compiled in by no test; a wrong argument shows only in the tool that receives the events, and the subsets of hooks multiply the histories", "anchors": ["src/sctk_alloc_hooks.h: SCTK_ALLOC_HOOK, SCTK_ALLOC_COND_HOOK, struct sctk_alloc_hooks", "src/sctk_alloc_hooks.c", "src/sctk_allocator.c: sctk_alloc_chain_alloc_align, sctk_alloc_chain_free, sctk_alloc_chain_realloc, sctk_alloc_chain_request_mem, sctk_alloc_chain_free_macro_bloc, sctk_alloc_chain_purge_rfq, sctk_alloc_rfq_count_entries, sctk_alloc_split_free_bloc, sctk_alloc_merge_chunk"]}
{"id": "C68", "title": "Code under a lock acts as one step, and blocks handed between threads keep their contents, on processors that delay stores", "statement": "On a processor that keeps the stores of each thread in a queue before they reach the memory, threads that access the data of a chain only with the lock of the chain, and their blocks only while they own them, see the values last stored. The accesses of a thread between lock and unlock have the effect, and return the values, of the same code run alone in one step. A block passed to another thread through a store keeps the contents that the first thread wrote.", "quantifier": "every number of threads, locks, addresses, every program between lock and unlock, every interleaving of the accesses and of the stores that reach the memory", "why_tests_cant": "the windows in which a store is delayed last some nanoseconds and depend on the machine; a test never chooses when a store reaches the memory", "anchors": ["src/sctk_alloc_internal_spinlock.h:48-84", "src/sctk_alloc_lock.h", "src/sctk_allocator.c:1475-1517", "src/sctk_allocator.c:1621-1651"]}
{"id": "C69", "title": "The bloc of a live address is found while other threads register and remove blocs", "statement": "A search for an address of a bloc that stays registered returns that bloc, whatever blocs other threads register and remove during the search; a search for an address in no bloc returns nothing, and never faults; no registration aborts; a search ends after a bounded number of its own steps.", "quantifier": "every number of threads, every set of disjoint blocs of multiples of 2 MB at any address, every interleaving of the accesses to the entries", "why_tests_cant": "the entry must change between two reads a few instructions apart, for an address in the last part of a bloc that is not aligned", "anchors": ["src/sctk_allocator.c:2281-2339", "src/sctk_allocator.c:2391-2418", "src/sctk_alloc_posix.c:699"]}
{"id": "C70", "title": "Registrations of blocs are found on processors that delay stores", "statement": "A thread that knows of a registered bloc (it registered it, or was told through memory by a thread that knew) reads it in its entry of the region table, although the tables and the entries are read without a lock, the stores of each thread are delayed, blocs are removed and registered again, and the table of a region is made at its first use; it does not wait for the lock. No registration aborts, a removal finds its bloc, every value read was registered in that entry, one table is made per region and all threads use it.", "quantifier": "every number of threads, every sequence of registrations, removals, searches and messages, every interleaving, every delay of the stores that keeps the order of each thread", "why_tests_cant": "delays of stores depend on the processor and last nanoseconds; a second table would lose the blocs of the first one silently", "anchors": ["src/sctk_allocator.c:2209-2242", "src/sctk_allocator.c:2253-2275", "src/sctk_allocator.c:2281-2339", "src/sctk_allocator.c:2391-2418"]}
{"id": "C71", "title": "Threads may be switched between chains at any time", "statement": "Threads may be switched with sctk_alloc_posix_set_default_chain to the chain of any thread, to the egg chain, or to none, at any moment. Each request is served by the chain that is current; every block can be freed and resized through whatever chain is current later, is released by the chain that gave it, and keeps its contents; no two blocks overlap, and none overlaps a chain structure. A chain on which no thread is gets no block and loses none; when a thread is on it again, the blocks freed meanwhile are taken back. The switch returns the old chain, and switching back restores the state.", "quantifier": "every number of threads and chains, every sequence of switches, calls and stores of the client, every kernel", "why_tests_cant": "the histories of switches multiply those of calls; the blocks of the egg chain, of chains used by several threads and of abandoned chains mix in all orders", "anchors": ["src/sctk_alloc_posix.c:124-144", "src/sctk_alloc_posix.c:182-194", "src/sctk_alloc_posix.c:279-282", "src/sctk_alloc_posix.c:523-557", "src/sctk_alloc_posix.c:561-738", "src/sctk_alloc_posix.c:792-897"]}
{"id": "C72", "title": "Concurrent realloc keeps the contents of its block", "statement": "On a chain flagged thread-safe, without memory source, threads call realloc, alloc and free together. Realloc takes no lock of its own; still it returns NULL or a block of the new size with the bytes of the old one, no two blocks overlap at any moment, the source and the target of the copy included, the results are those of the calls to alloc and free run one at a time in the order in which they took the lock, and every thread can finish its call.", "quantifier": "every interleaving of any number of threads, each byte of a copy being a step", "why_tests_cant": "schedules are unbounded; the header of the block is read and its bytes are copied while other threads change the neighbours", "anchors": ["src/sctk_allocator.c:1680-1749"]}
{"id": "C73", "title": "A chain can be given memory while other threads use it", "statement": "On a chain flagged thread-safe, without memory source, a thread calls sctk_alloc_chain_user_refill with a new buffer while other threads allocate, free and store data. The blocks of the clients stay disjoint, keep their contents and lie in the buffers of the chain; the results are those of the calls run one at a time in some order, and once no thread is in a call the chain is the one that this order leaves.", "quantifier": "every interleaving of any number of threads and refills", "why_tests_cant": "the function takes no lock; whether it meets another access to the same free list depends on the schedule", "anchors": ["src/sctk_allocator.c:1046-1078", "src/sctk_allocator.c:487-530"]}
{"id": "C74", "title": "A range of chunks is taken out of the free lists", "statement": "sctk_alloc_free_chunk_range(pool, first, last), for two chunks of the same buffer with first before last or equal, takes exactly the free chunks from first to last out of the free lists and marks them used. The other chunks, the order of the free lists, the status of the lists and the data of the clients are as they should be. The range must not leave the buffer: otherwise the call never ends.", "quantifier": "every reachable state of a chain and every run of neighbouring chunks of a buffer", "why_tests_cant": "the only test removes one fixed run of three chunks; a wrong stop condition or a broken link shows only with other runs and with lists that hold several chunks", "anchors": ["src/sctk_allocator.c:878-905", "src/sctk_allocator.c:537-563"]}
{"id": "C75", "title": "Which free chunk an allocation takes", "statement": "An allocation takes the head of the first non-empty free list, starting at the smallest class whose chunks are all large enough; if these lists are empty, the first chunk of the list below that is large enough; NULL only if there is none. A chunk is cut if 32 bytes or more remain, and the remainder becomes the head of its list. A freed chunk, merged with its neighbours, becomes the last of its list. All other chunks keep their order. (So the choice is neither best fit nor, as the comment at line 720 says, first in first out.)", "quantifier": "every reachable state of a chain without memory source, every request and every live block", "why_tests_cant": "the order of the lists depends on the whole history; the tests check single lists that they build by hand", "anchors": ["src/sctk_allocator.c:701-740", "src/sctk_allocator.c:495-530", "src/sctk_allocator.c:571-589"]}
{"id": "C76", "title": "When realloc leaves a block where it is", "statement": "realloc(p, n) returns p, and then changes nothing at all, exactly if n fits in the chunk of the block and leaves unused at most the threshold and at most 1/factor of it; otherwise the block is moved, or freed with NULL. The usable size of a block never changes until the block is freed or resized. With the default parameters a block obtained with n bytes is left alone by a later realloc to the same n. (False for n < 24 other than 16: such a realloc can free the block and return NULL. A block of 2097105 to 2097119 bytes is moved too. realloc also never extends a block into the free chunk behind it.)", "quantifier": "every reachable state of a chain without memory source, and of a process with any number of threads and the memory source, with calls one at a time or interleaved, also when threads end (there only the thread that obtained the block, or any thread if the former has ended, leaves it where it is), every live block and size; any valid calls between the allocation and the realloc", "why_tests_cant": "the size of the chunk depends on the history of the heap; the loss of small blocks needs an exhausted chain", "anchors": ["src/sctk_allocator.c:1680-1749", "src/sctk_alloc_config.c"]}
{"id": "C77", "title": "Blocks that are freed leave no trace", "statement": "The places and sizes of the free chunks of a chain depend only on the used chunks, not on the history. After any calls that do not free or resize the blocks of the start, once the blocks obtained since are freed, all chunks are the same as before, and every request succeeds exactly if it would have succeeded before. (False for a chain that does not merge.)", "quantifier": "every two histories of valid calls on chains without memory source; every length of the run, every size and boundary", "why_tests_cant": "slow fragmentation shows only after long histories, and depends on the order of the calls", "anchors": ["src/sctk_allocator.c:1583-1650", "src/sctk_allocator.c:911-990"]}
{"id": "C78", "title": "At most one bloc per block, and freed memory serves again", "statement": "At any time the process holds at most as many blocs from its memory source as there are blocks that are live or wait in the remote free queue of their owner; the chain of a thread holds at most as many blocs as that thread has such blocks. The memory of a freed block is never lost. (Both are false for requests of 1048545 to 1048560 bytes: freed, they are never given out again whatever is called later, and their bloc never goes back to the source.)", "quantifier": "every number of threads, every interleaving of complete calls, every size, boundary and configuration; every continuation of the run", "why_tests_cant": "the lost sizes are 16 of 2^64 and the loss has no immediate effect", "anchors": ["src/sctk_allocator.c:1583-1650", "src/sctk_allocator.c:911-990", "src/sctk_alloc_light_mm_source.c:150-260"]}
{"id": "C79", "title": "The dump of a segment prints its chunks", "statement": "sctk_alloc_debug_dump_segment prints each chunk of the segment once, in order, with its address, size and state, and then ends. (False of the code: the first chunk is left out; with the addresses of the buffer nothing is printed; with the end of the buffer as second address it never ends.)", "quantifier": "every state reachable by valid calls on a chain, every buffer of the chain", "why_tests_cant": "the output is read by people, and only when something else is wrong", "anchors": ["src/sctk_alloc_debug.c:166-184", "src/sctk_alloc_debug.c:44-45"]}
{"id": "C80", "title": "The page map file is opened once and read by one thread at a time", "statement": "The threads that compute NUMA statistics open /proc/self/pagemap once, use it only while it is open, are never two in the locked code, and each reads the entries that it asked for. (False of the code at the end of the process: the handler closes the file while a reader has passed its test, and the file is opened again afterwards.)", "quantifier": "every number of threads and every interleaving of their steps, every outcome of fopen", "why_tests_cant": "interleavings of any number of threads, and the end of the process while threads read", "anchors": ["src/sctk_alloc_numa_stat.c:38-89", "src/sctk_alloc_numa_stat.c:121-128", "src/sctk_alloc_numa_stat.c:193-234"]}
{"id": "C81", "title": "What the process keeps from the kernel is bounded", "statement": "Whatever the threads of a process call, also when their calls interleave and when threads end while others run, the blocs kept in the cache of the memory source make together at most keep_mem + keep_max bytes, the size of the source counts exactly these, and the blocs outside of the cache are at most as many as the blocks that are live, wait for their owner or belong to a call under way. The cache keeps at most keep_mem bytes. (The last sentence is false of the code: the test is made before the bloc is added; with keep_mem = 0 a bloc is kept.)", "quantifier": "every history of valid calls of any number of threads, calls one at a time or interleaved, every configuration with a realloc factor that is not 0, every answer of the kernel", "why_tests_cant": "the bound is on all histories and interleavings; the overshoot is invisible to the client", "anchors": ["src/sctk_alloc_light_mm_source.c:54-61", "src/sctk_alloc_light_mm_source.c:145-158", "src/sctk_alloc_light_mm_source.c:360-473", "src/sctk_alloc_light_mm_source.c:531-561", "src/sctk_alloc_config.h:53-56"]}
{"id": "C82", "title": "The bytes held from the kernel are bounded by the blocks", "statement": "Every bloc that the regions know holds a block that is live, waits for its owner or belongs to a call under way. A bloc has 2 MB, or it holds one block only, whose usable bytes end at the end mark of the bloc. The blocs and the cache of the source share no byte, and have together at most keep_mem + keep_max bytes and, for each block, 2 MB or the bytes of its chunk plus 48. The chunk of a new block has at most 47 bytes more than what is asked for, with the alignment, or less than 2 MB more above 1 MB. (The first sentence is false of the code for requests that need a chunk of 1 MB.)", "quantifier": "every history of valid calls of any number of threads, one at a time, interleaved, or with threads that end while others run; every configuration with a realloc factor that is not 0; every answer of the kernel", "why_tests_cant": "a bound of the memory of the process over all histories; the memory of lost or oversized blocs is not visible to the client", "anchors": ["src/sctk_allocator.c:1260-1308", "src/sctk_allocator.c:1444-1529", "src/sctk_alloc_light_mm_source.c:360-473", "src/sctk_alloc_light_mm_source.c:531-561"]}
{"id": "C83", "title": "Blocks hold little more than what was asked for, at any time", "statement": "After any history of calls, the chunk of every block, live or waiting for its owner, has at most 47 bytes more than what the client asked for last plus the greatest boundary of the calls (an empty request counts as 1 byte), or less than 2 MB more if this makes more than 1 MB, or what a resize in place may leave: at most the realloc threshold, and at most the part of the block given by the realloc factor. For a block obtained without boundary no boundary is counted. Hence the blocs and the cache, which share no byte, have together at most the bytes asked for plus keep_mem + keep_max plus, for each block, the greatest boundary, 64 bytes and the greater of 2 MB and the realloc threshold.", "quantifier": "every history of valid calls of any number of threads, one at a time or interleaved, also when threads end while others run; every configuration with a realloc factor that is not 0; every answer of the kernel", "why_tests_cant": "a bound of the memory of the process by what the client asked for, over all histories, including repeated resizes in place and frees by other threads", "anchors": ["src/sctk_allocator.c:1260-1308", "src/sctk_allocator.c:1680-1749", "src/sctk_alloc_posix.c:614-649", "src/sctk_alloc_posix.c:665-739", "src/sctk_alloc_posix.c:792-891", "src/sctk_alloc_light_mm_source.c:360-473"]}
{"id": "C84", "title": "Clean-up of a default source gives back its heap and nothing else", "statement": "The clean-up of a default memory source ends normally, gives back to the kernel exactly the addresses of its heap, and leaves all other pages of the process as they are. (False: the page behind the heap is unmapped too.)", "quantifier": "every heap on which the source can be initialised, every state of the process at the time of the clean-up, every page behind the heap", "why_tests_cant": "the page behind the heap is most often not mapped, and then nothing is seen; if it is, the fault comes later in unrelated code", "anchors": ["src/sctk_allocator.c:2114-2143", "src/sctk_allocator.c:1836-1884"]}
