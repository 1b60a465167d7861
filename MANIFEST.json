{
 "claims": [
  {
   "property": "C01",
   "status": "partial",
   "theorems": [
    "MpcAlloc.C01_live_blocks_disjoint_partial",
    "MpcAlloc.C01_refuted"
   ],
   "note": "Histories are those of Spec.lean (Reach/ValidOp): request sizes whose chunk size does not overflow, enlarging realloc only of blocks obtained without boundary. Missing: the other sizes, for which the property is false of the code (C01_refuted: 2^64-8 bytes)."
  },
  {
   "property": "C02",
   "status": "partial",
   "theorems": [
    "MpcAlloc.C02_inside_buffers_partial",
    "MpcAlloc.C02_noninterference_partial",
    "MpcAlloc.C02_refuted"
   ],
   "note": "Histories are those of Spec.lean (Reach/ValidOp): request sizes whose chunk size does not overflow, enlarging realloc only of blocks obtained without boundary. Missing: the other sizes, for which the property is false (C02_refuted)."
  },
  {
   "property": "C03",
   "status": "partial",
   "theorems": [
    "MpcAlloc.C03_large_enough_partial",
    "MpcAlloc.C03_refuted"
   ],
   "note": "Proved for sizes whose chunk size does not overflow; false near 2^64 (C03_refuted)."
  },
  {
   "property": "C04",
   "status": "partial",
   "theorems": [
    "MpcAlloc.C04_live_data_kept_partial",
    "MpcAlloc.C04_refuted"
   ],
   "note": "Histories are those of Spec.lean (Reach/ValidOp): request sizes whose chunk size does not overflow, enlarging realloc only of blocks obtained without boundary. False for sizes near 2^64 (C04_refuted)."
  },
  {
   "property": "C05",
   "status": "partial",
   "theorems": [
    "MpcAlloc.C05_alignment_partial",
    "MpcAlloc.C03_large_enough_partial",
    "MpcAlloc.C05_refuted"
   ],
   "note": "Alignment and size for sizes whose chunk size does not overflow; false near 2^64 (C05_refuted)."
  },
  {
   "property": "C06",
   "status": "partial",
   "theorems": [
    "MpcAlloc.C06_valid_calls_succeed_partial",
    "MpcAlloc.C06_refuted"
   ],
   "note": "Histories are those of Spec.lean (Reach/ValidOp): request sizes whose chunk size does not overflow, enlarging realloc only of blocks obtained without boundary. A chain that registers its memory also needs free region entries (RegOK). False from 2^63 bytes on a chain with a free chunk of exactly 2 MB (C06_refuted)."
  },
  {
   "property": "C07",
   "status": "proved",
   "theorems": [
    "MpcAlloc.C07_one_free_chunk",
    "MpcAlloc.C07_can_destroy",
    "MpcAlloc.C07_capacity"
   ],
   "note": "Histories are those of Spec.lean (Reach/ValidOp): request sizes whose chunk size does not overflow, enlarging realloc only of blocks obtained without boundary. "
  },
  {
   "property": "C08",
   "status": "proved",
   "theorems": [
    "MpcAlloc.C08_coalesced"
   ],
   "note": "Histories are those of Spec.lean (Reach/ValidOp): request sizes whose chunk size does not overflow, enlarging realloc only of blocks obtained without boundary. "
  },
  {
   "property": "C09",
   "status": "partial",
   "theorems": [
    "MpcAlloc.C09_alloc_succeeds_partial",
    "MpcAlloc.C09_refuted"
   ],
   "note": "Proved for free chunks up to 2 MB; false for larger ones (C09_refuted)."
  },
  {
   "property": "C10",
   "status": "proved",
   "theorems": [
    "MpcAlloc.C10_failing_alloc_no_effect"
   ],
   "note": "Any size and boundary; the buffers are below address 2^63, as every x86-64 user address."
  },
  {
   "property": "C11",
   "status": "proved",
   "theorems": [
    "MpcAlloc.C11_free_null",
    "MpcAlloc.C11_free_foreign"
   ],
   "note": "Any state of chain and memory."
  },
  {
   "property": "C12",
   "status": "partial",
   "theorems": [
    "MpcAlloc.C12_double_free_partial",
    "MpcAlloc.C12_double_free_missed",
    "MpcAlloc.C12_refuted"
   ],
   "note": "Proved for unaligned blocks whose left neighbour is in use, and without merging. False when both neighbours are free (C12_double_free_missed, C12_refuted)."
  },
  {
   "property": "C13",
   "status": "partial",
   "theorems": [
    "MpcAlloc.C13_realloc_keeps_data_partial",
    "MpcAlloc.C13_any_block_partial",
    "MpcAlloc.C13_refuted"
   ],
   "note": "C13_realloc_keeps_data_partial: the calls of Spec.lean (Reach/ValidOp). C13_any_block_partial: any block, also obtained with a boundary, made larger or smaller, whenever the call returns. False for such a block when the new chunk lies right behind the old one (C13_refuted: memcpy of overlapping areas). Missing: sizes whose chunk size overflows."
  },
  {
   "property": "C14",
   "status": "partial",
   "theorems": [
    "MpcAlloc.C14_realloc_size_partial",
    "MpcAlloc.C14_refuted"
   ],
   "note": "Histories are those of Spec.lean (Reach/ValidOp): request sizes whose chunk size does not overflow, enlarging realloc only of blocks obtained without boundary. False for blocks obtained with a boundary (C14_refuted)."
  },
  {
   "property": "C15",
   "status": "partial",
   "theorems": [
    "MpcAlloc.C15_other_blocks_kept_partial",
    "MpcAlloc.C15_refuted"
   ],
   "note": "False of the code (C15_refuted): the old block is freed. The partial theorem keeps the other live blocks."
  },
  {
   "property": "C16",
   "status": "partial",
   "theorems": [
    "MpcAlloc.C16_lookup_exact_partial",
    "MpcAlloc.C16_refuted"
   ],
   "note": "Exactness and agreement are proved from 32 bytes to 2 MB, and the constant time lookup ends for every size. The binary search does not end above 2 MB (C16_refuted)."
  },
  {
   "property": "C17",
   "status": "proved",
   "theorems": [
    "MpcAlloc.C17_header_round_trip",
    "MpcAlloc.C17_field_updates",
    "MpcAlloc.C17_fields_independent"
   ],
   "note": ""
  },
  {
   "property": "C18",
   "status": "proved",
   "theorems": [
    "MpcAlloc.C18_pointer_leads_back"
   ],
   "note": "Any boundary below 2^56 that does not run past the end of the address space."
  },
  {
   "property": "C19",
   "status": "partial",
   "theorems": [
    "MpcAlloc.C19_lookup_partial",
    "MpcAlloc.C19_refuted"
   ],
   "note": "Proved for addresses from 2 MB to 2^48; false in the first 2 MB (C19_refuted). Histories are those of RegHist."
  },
  {
   "property": "C20",
   "status": "partial",
   "theorems": [
    "MpcAlloc.C20_registration_partial",
    "MpcAlloc.C20_refuted"
   ],
   "note": "Registration never aborts; answers unchanged for addresses from 2 MB to 2^48; false for the address 2 MB (C20_refuted)."
  },
  {
   "property": "C21",
   "status": "proved",
   "theorems": [
    "MpcAlloc.C21_no_double_hand_out"
   ],
   "note": "Histories are those of LHist: requests of whole pages, frees, segments given by hand, writes outside the source's own data, other mappings; the kernel only gives pages that are not in use."
  },
  {
   "property": "C22",
   "status": "proved",
   "theorems": [
    "MpcAlloc.C22_exact_accounting"
   ],
   "note": "Histories are those of LHist: requests of whole pages, frees, segments given by hand, writes outside the source's own data, other mappings; the kernel only gives pages that are not in use."
  },
  {
   "property": "C23",
   "status": "proved",
   "theorems": [
    "MpcAlloc.C23_cache_bounded"
   ],
   "note": "Histories are those of LHist: requests of whole pages, frees, segments given by hand, writes outside the source's own data, other mappings; the kernel only gives pages that are not in use."
  },
  {
   "property": "C24",
   "status": "partial",
   "theorems": [
    "MpcAlloc.C24_blocs_returned_partial",
    "MpcAlloc.C24_refuted"
   ],
   "note": "Histories are those of PosixSpec.lean (PReach/PValid): any number of threads, calls one at a time, malloc, memalign, calloc, free (also of blocks of other threads), realloc, client stores; any answers of the kernel. Sizes do not wrap around and, from the huge limit on, fit in their bloc (PSize). Requests of 1048529 to 1048560 bytes are excluded (CleanOp); with them the property is false (C24_refuted)."
  },
  {
   "property": "C30",
   "status": "partial",
   "theorems": [
    "MpcAlloc.C30_blocks_disjoint_partial",
    "MpcAlloc.C30_pending_partial",
    "MpcAlloc.C30_remote_free",
    "MpcAlloc.C30_calls_partial",
    "MpcAlloc.C30_calls_any_partial"
   ],
   "note": "Histories are those of PosixSpec.lean (PReach/PValid): any number of threads, calls one at a time, malloc, memalign, calloc, free (also of blocks of other threads), realloc, client stores; any answers of the kernel. Sizes do not wrap around and, from the huge limit on, fit in their bloc (PSize). Interleaved calls: C49. Missing: the other sizes, and the growing realloc of an aligned block by its own thread (false, C14_refuted)."
  },
  {
   "property": "C31",
   "status": "partial",
   "theorems": [
    "MpcAlloc.C31_zeroed_partial",
    "MpcAlloc.C31_wraps",
    "MpcAlloc.C31_refuted"
   ],
   "note": "Histories are those of PosixSpec.lean (PReach/PValid): any number of threads, calls one at a time, malloc, memalign, calloc, free (also of blocks of other threads), realloc, client stores; any answers of the kernel. Sizes do not wrap around and, from the huge limit on, fit in their bloc (PSize). False when the product wraps around (C31_refuted)."
  },
  {
   "property": "C32",
   "status": "partial",
   "theorems": [
    "MpcAlloc.C32_memalign_partial",
    "MpcAlloc.C32_einval",
    "MpcAlloc.C32_no_enomem",
    "MpcAlloc.C32_refuted",
    "MpcAlloc.C32_refuted_zero"
   ],
   "note": "Proved for powers of two from 8 on when the kernel has memory. The error codes are wrong: EINVAL exactly for 1, 2 and 4 (C32_einval), never ENOMEM (C32_no_enomem), 0 and 24 accepted (C32_refuted)."
  },
  {
   "property": "C25",
   "status": "proved",
   "theorems": [
    "MpcAlloc.Queue.C25_exactly_once",
    "MpcAlloc.Queue.C25_nothing_lost"
   ],
   "note": "Interleavings of atomic accesses, sequentially consistent memory."
  },
  {
   "property": "C26",
   "status": "proved",
   "theorems": [
    "MpcAlloc.Queue.C26_fifo"
   ],
   "note": "Interleavings of atomic accesses, sequentially consistent memory."
  },
  {
   "property": "C27",
   "status": "proved",
   "theorems": [
    "MpcAlloc.Queue.C27_drain_ends"
   ],
   "note": "Interleavings of atomic accesses, sequentially consistent memory."
  },
  {
   "property": "C28",
   "status": "proved",
   "theorems": [
    "MpcAlloc.Spin.C28_mutual_exclusion",
    "MpcAlloc.Spin.C28_acquires",
    "MpcAlloc.Spin.C28_swap_result"
   ],
   "note": "Interleavings of atomic accesses, sequentially consistent memory."
  },
  {
   "property": "C29",
   "status": "partial",
   "theorems": [
    "MpcAlloc.C29_linearizable_partial",
    "MpcAlloc.C29_no_failure_partial",
    "MpcAlloc.C29_blocks_partial",
    "MpcAlloc.C29_one_at_a_time",
    "MpcAlloc.C29_real_time",
    "MpcAlloc.C29_progress"
   ],
   "note": "Any number of threads, every interleaving of the steps: lock word accesses, header reads before the lock, the code between lock and unlock as one step, header writes after the unlock, client stores. The code between lock and unlock as one step is justified by C68, also with delayed stores. Realloc by concurrent threads: C72. Refill by concurrent threads: C73. Missing: sizes close to 2^64."
  },
  {
   "property": "C33",
   "status": "partial",
   "theorems": [
    "MpcAlloc.C33_once_partial",
    "MpcAlloc.C33_when_partial",
    "MpcAlloc.C33_when_blocks_partial",
    "MpcAlloc.C33_exit_partial",
    "MpcAlloc.C33_calls_partial",
    "MpcAlloc.C33_last_huge_partial",
    "MpcAlloc.C33_serial_partial",
    "MpcAlloc.C33_refuted",
    "MpcAlloc.C33_refuted_locked",
    "MpcAlloc.C33_refuted_empty",
    "MpcAlloc.C33_refuted_race"
   ],
   "note": "Calls one at a time, any number of threads, every history after the end of a thread in which its blocks are freed and not resized: the handler is called at most once, and exactly when the last bloc goes if the thread had a live block. False of the code when the chain is already empty (never called, C33_refuted_empty), when the last block is below the huge limit (the released chain is unlocked, C33_refuted_locked), and when two threads free the last huge blocks together (twice or never, C33_refuted_race)."
  },
  {
   "property": "C34",
   "status": "partial",
   "theorems": [
    "MpcAlloc.RoundRobin.C34_round_robin_partial",
    "MpcAlloc.RoundRobin.C34_refuted",
    "MpcAlloc.RoundRobin.C34_two_in_critical_section",
    "MpcAlloc.RoundRobin.C34_no_node"
   ],
   "note": "Proved when the first call ends before the others start; false when two threads make the first call together (C34_refuted), and a division by zero without NUMA node."
  },
  {
   "property": "C35",
   "status": "partial",
   "theorems": [
    "MpcAlloc.Pmem.C35_pool_partial",
    "MpcAlloc.Pmem.C35_refuted"
   ],
   "note": "Proved for sizes that do not wrap around; false otherwise (C35_refuted)."
  },
  {
   "property": "C36",
   "status": "partial",
   "theorems": [
    "MpcAlloc.C36_shared_partial"
   ],
   "note": "Proved for segments whose address, size and chain structure size are multiples of 16 and that leave at least 96 bytes. Missing: other alignments; with allocation hooks compiled in the structure has 1688 bytes and blocks are only 8-aligned."
  },
  {
   "property": "C37",
   "status": "partial",
   "theorems": [
    "MpcAlloc.C37_init_partial",
    "MpcAlloc.C37_refuted",
    "MpcAlloc.C37_refuted_init"
   ],
   "note": "False of the code: two commas are missing in the class table, so initialisation over more than 2 MB never ends (C37_refuted_init), and a heap of 2 MB, whose initialisation ends (C37_init_partial), serves no request (C37_refuted)."
  },
  {
   "property": "C38",
   "status": "partial",
   "theorems": [
    "MpcAlloc.C38_stat_partial",
    "MpcAlloc.C38_refuted_min",
    "MpcAlloc.C38_refuted_thread_safe",
    "MpcAlloc.C38_refuted_big",
    "MpcAlloc.C38_count_entries"
   ],
   "note": "The counts and sums are exact for chunks up to 2 MB; the minimum is always 0 (C38_refuted_min), a thread-safe chain deadlocks on its own lock (C38_refuted_thread_safe), larger chunks are not counted (C38_refuted_big), and the count of queue entries does not return (C38_count_entries)."
  },
  {
   "property": "C39",
   "status": "proved",
   "theorems": [
    "MpcAlloc.C39_usable_size"
   ],
   "note": "Histories are those of Spec.lean (Reach/ValidOp): request sizes whose chunk size does not overflow, enlarging realloc only of blocks obtained without boundary. "
  },
  {
   "property": "C40",
   "status": "proved",
   "theorems": [
    "MpcAlloc.C40_freed_block_reusable"
   ],
   "note": "Histories are those of Spec.lean (Reach/ValidOp): request sizes whose chunk size does not overflow, enlarging realloc only of blocks obtained without boundary. "
  },
  {
   "property": "C41",
   "status": "proved",
   "theorems": [
    "MpcAlloc.C41_cleanup",
    "MpcAlloc.C41_cleanup_aborts",
    "MpcAlloc.C41_lock_kept"
   ],
   "note": "Histories are those of LHist: requests of whole pages, frees, segments given by hand, writes outside the source's own data, other mappings; the kernel only gives pages that are not in use. The lock stays taken afterwards (C41_lock_kept)."
  },
  {
   "property": "C42",
   "status": "partial",
   "theorems": [
    "MpcAlloc.C42_served_partial",
    "MpcAlloc.C42_refuted"
   ],
   "note": "Histories are those of LHist: requests of whole pages, frees, segments given by hand, writes outside the source's own data, other mappings; the kernel only gives pages that are not in use. Proved when the kernel has pages; false on a refusal: the header is written at MAP_FAILED (C42_refuted)."
  },
  {
   "property": "C43",
   "status": "partial",
   "theorems": [
    "MpcAlloc.C43_usable_size_partial",
    "MpcAlloc.C43_whole_partial",
    "MpcAlloc.C43_interleaved_partial",
    "MpcAlloc.C43_ends_partial",
    "MpcAlloc.C43_refuted"
   ],
   "note": "Histories are those of PosixSpec.lean (PReach/PValid): any number of threads, calls one at a time, malloc, memalign, calloc, free (also of blocks of other threads), realloc, client stores; any answers of the kernel. Sizes do not wrap around and, from the huge limit on, fit in their bloc (PSize). False for 2 MB - 48 bytes (C43_refuted). The usable bytes of two blocks are different ones (C43_whole_partial), also for interleaved calls (C43_interleaved_partial) and when threads end while others run (C43_ends_partial)."
  },
  {
   "property": "C44",
   "status": "proved",
   "theorems": [
    "MpcAlloc.C44_small_overhead"
   ],
   "note": "Histories are those of PosixSpec.lean (PReach/PValid): any number of threads, calls one at a time, malloc, memalign, calloc, free (also of blocks of other threads), realloc, client stores; any answers of the kernel. Sizes do not wrap around and, from the huge limit on, fit in their bloc (PSize). "
  },
  {
   "property": "C45",
   "status": "partial",
   "theorems": [
    "MpcAlloc.C45_realloc_partial"
   ],
   "note": "Histories are those of PosixSpec.lean (PReach/PValid): any number of threads, calls one at a time, malloc, memalign, calloc, free (also of blocks of other threads), realloc, client stores; any answers of the kernel. Sizes do not wrap around and, from the huge limit on, fit in their bloc (PSize). Missing: an aligned block that its own thread makes larger (C14_refuted), and the other sizes."
  },
  {
   "property": "C46",
   "status": "partial",
   "theorems": [
    "MpcAlloc.C46_structures_partial",
    "MpcAlloc.C46_calls_partial",
    "MpcAlloc.C46_spawn_keeps",
    "MpcAlloc.C46_first_threads_partial",
    "MpcAlloc.C46_refuted"
   ],
   "note": "Build without hwloc, calls one at a time; the start-up stages, the egg chain over its 2 MB buffer, and the calls of C30. Proved for the first 1224 threads; false beyond: the egg chain has no memory source, and after at most 1248 threads in the life of the process the next one uses NULL (C46_refuted)."
  },
  {
   "property": "C47",
   "status": "partial",
   "theorems": [
    "MpcAlloc.C47_destroy_partial",
    "MpcAlloc.C47_refuted"
   ],
   "note": "Proved when the registered blocs of the chain are in the region of 1 TB of its base address, for addresses above 2 MB; false otherwise (C47_refuted)."
  },
  {
   "property": "C48",
   "status": "partial",
   "theorems": [
    "MpcAlloc.C48_values_partial",
    "MpcAlloc.C48_usable_partial",
    "MpcAlloc.C48_flags_refused",
    "MpcAlloc.C48_refuted",
    "MpcAlloc.C48_number",
    "MpcAlloc.C48_no_number",
    "MpcAlloc.C48_refuted_negative"
   ],
   "note": "Proved for decimal numbers without overflow, flags true or false, and a factor that is not 0; what any number with blanks, sign and rest gives is C48_number. False otherwise: a factor of 0, a text that is not a number or 2^32 is accepted and realloc divides by zero (C48_refuted); negative sizes are accepted (C48_refuted_negative)."
  },
  {
   "property": "C49",
   "status": "partial",
   "theorems": [
    "MpcAlloc.C49_blocks_disjoint_partial",
    "MpcAlloc.C49_steps_any_partial",
    "MpcAlloc.C49_steps_partial",
    "MpcAlloc.C49_record",
    "MpcAlloc.C49_start",
    "MpcAlloc.C49_spawn_partial",
    "MpcAlloc.C49_blocs_returned_partial"
   ],
   "note": "Interleavings of any number of threads (MReach, ConcPosix.lean): each access to a remote free queue is a step; the work of a thread on its own chain (with the source, under its lock), a search in the regions, and a copy or clearing of a block known to one thread only are one step each. Sequentially consistent memory. Excluded: sizes that wrap around or do not fit in their bloc (PSize), and the growing realloc of an aligned block by its own thread. Lack of memory is not detected by the code: the step is then undefined. The return of all memory excludes requests of 1048529 to 1048560 bytes (C24_refuted)."
  },
  {
   "property": "C50",
   "status": "partial",
   "theorems": [
    "MpcAlloc.C50_owner_frees_partial",
    "MpcAlloc.C50_entered_partial",
    "MpcAlloc.C50_free_step_partial",
    "MpcAlloc.C50_nothing_lost_partial",
    "MpcAlloc.C50_push_partial"
   ],
   "note": "Interleavings of any number of threads (MReach, ConcPosix.lean): each access to a remote free queue is a step; the work of a thread on its own chain (with the source, under its lock), a search in the regions, and a copy or clearing of a block known to one thread only are one step each. Sequentially consistent memory. Excluded: sizes that wrap around or do not fit in their bloc (PSize), and the growing realloc of an aligned block by its own thread. "
  },
  {
   "property": "C51",
   "status": "partial",
   "theorems": [
    "MpcAlloc.C51_call_ends_partial",
    "MpcAlloc.C51_no_deadlock_partial",
    "MpcAlloc.C51_push_ends"
   ],
   "note": "Interleavings of any number of threads (MReach, ConcPosix.lean): each access to a remote free queue is a step; the work of a thread on its own chain (with the source, under its lock), a search in the regions, and a copy or clearing of a block known to one thread only are one step each. Sequentially consistent memory. Excluded: sizes that wrap around or do not fit in their bloc (PSize), and the growing realloc of an aligned block by its own thread. A call may also stop at a request for which the kernel has no memory."
  },
  {
   "property": "C52",
   "status": "partial",
   "theorems": [
    "MpcAlloc.RegionInit.C52_registered_partial",
    "MpcAlloc.RegionInit.C52_lookup_partial",
    "MpcAlloc.RegionInit.C52_refuted",
    "MpcAlloc.RegionInit.C52_refuted_lock"
   ],
   "note": "Proved when the first registration of the process ends before another thread begins one, as in the POSIX layer, where the start-up is under a mutex. False otherwise: the flag of the initialisation is set before the tables are wiped (C52_refuted), and two initialisations undo the lock (C52_refuted_lock). Left out: a failing mmap; removals and delayed stores are in C70."
  },
  {
   "property": "C53",
   "status": "partial",
   "theorems": [
    "MpcAlloc.BaseInit.C53_set_partial",
    "MpcAlloc.BaseInit.C53_default_partial",
    "MpcAlloc.BaseInit.C53_robin_partial",
    "MpcAlloc.BaseInit.C53_refuted",
    "MpcAlloc.BaseInit.C53_refuted_nodes"
   ],
   "note": "Up to 128 NUMA nodes. Proved without hwloc or without round robin, and with round robin for threads that do not pick their source during the NUMA phase of the start-up; false during it (C53_refuted) and for machines without NUMA node (C53_refuted_nodes). The call of the round robin counter is one step (C34 has its steps)."
  },
  {
   "property": "C54",
   "status": "partial",
   "theorems": [
    "MpcAlloc.NumaStat.C54_pages_partial",
    "MpcAlloc.NumaStat.C54_unknown_partial",
    "MpcAlloc.NumaStat.C54_nomap_partial",
    "MpcAlloc.NumaStat.C54_chain_partial",
    "MpcAlloc.NumaStat.C54_check_partial",
    "MpcAlloc.NumaStat.C54_refuted_unaligned",
    "MpcAlloc.NumaStat.C54_refuted_2GB",
    "MpcAlloc.NumaStat.C54_refuted_no_node",
    "MpcAlloc.NumaStat.C54_refuted_unavailable",
    "MpcAlloc.NumaStat.C54_refuted_order",
    "MpcAlloc.NumaStat.C54_refuted_check",
    "MpcAlloc.NumaStat.C54_refuted_chain"
   ],
   "note": "Proved for segments of whole pages up to 2 GB (4 GB without the page map) when the kernel gives page order 12 and a node for each page in memory (pages with an error or a node from 128 on go to the last index, C54_unknown_partial), and for chains whose blocs have one entry each. False otherwise: C54_refuted_*. Rounding of floats in the check is left out."
  },
  {
   "property": "C55",
   "status": "partial",
   "theorems": [
    "MpcAlloc.NumaMigrate.C55_segment_partial",
    "MpcAlloc.NumaMigrate.C55_chain_partial",
    "MpcAlloc.NumaMigrate.C55_source_partial",
    "MpcAlloc.NumaMigrate.C55_refuted_content",
    "MpcAlloc.NumaMigrate.C55_refuted_struct",
    "MpcAlloc.NumaMigrate.C55_refuted_reset",
    "MpcAlloc.NumaMigrate.C55_refuted_source"
   ],
   "note": "Proved for existing nodes and the migration of structure and content together. False otherwise: the flag of the content is not used (C55_refuted_content, C55_refuted_struct), -1 dereferences NULL (C55_refuted_reset), a source keeps its node (C55_refuted_source). hwloc refusing a binding is left out."
  },
  {
   "property": "C56",
   "status": "partial",
   "theorems": [
    "MpcAlloc.OnNode.C56_blocks_partial",
    "MpcAlloc.OnNode.C56_lookup_partial",
    "MpcAlloc.OnNode.C56_no_failure_partial",
    "MpcAlloc.OnNode.C56_one_at_a_time",
    "MpcAlloc.OnNode.C56_progress_partial",
    "MpcAlloc.OnNode.C56_free_ends_partial",
    "MpcAlloc.OnNode.C56_nothing_lost_partial",
    "MpcAlloc.OnNode.C56_node",
    "MpcAlloc.OnNode.C56_count_partial",
    "MpcAlloc.OnNode.C56_refuted_count"
   ],
   "note": "Proved for boundaries that are powers of two, sizes that do not wrap around and that fit their bloc (PSize), aligned blocks that do not grow by realloc; the code under the lock and one exchange with the source are single steps; all memory is given back when no request was just below the huge limit. The counter of blocs is updated without lock for huge blocks: C56_refuted_count; it is right in executions where nobody changes it while another thread is between its read and its write: C56_count_partial."
  },
  {
   "property": "C57",
   "status": "partial",
   "theorems": [
    "MpcAlloc.Ends.C57_blocks_partial",
    "MpcAlloc.Ends.C57_calls_partial",
    "MpcAlloc.Ends.C57_resize_partial",
    "MpcAlloc.Ends.C57_once_partial",
    "MpcAlloc.Ends.C57_running_partial",
    "MpcAlloc.Ends.C57_when_partial",
    "MpcAlloc.Ends.C57_when_blocks_partial",
    "MpcAlloc.Ends.C57_exit_partial",
    "MpcAlloc.Ends.C57_last_huge_partial",
    "MpcAlloc.Ends.C57_returned_partial",
    "MpcAlloc.Ends.C57_refuted_locked",
    "MpcAlloc.Ends.C57_refuted_empty",
    "MpcAlloc.Ends.C57_refuted"
   ],
   "note": "Proved for sizes that do not wrap around and fit their bloc (PSize), aligned blocks that are not made larger by realloc, calls one after the other, and threads that make no call after their end (the egg chain that would serve them is not part of this model); the memory of a released chain structure is not reused. False for the free of the last block of an ended thread below the huge limit, which uses the released chain (C57_refuted_locked, C57_refuted), and for a thread that ends without block, whose chain is never released (C57_refuted_empty)."
  },
  {
   "property": "C58",
   "status": "partial",
   "theorems": [
    "MpcAlloc.ConcEnds.C58_blocks_partial",
    "MpcAlloc.ConcEnds.C58_steps_partial",
    "MpcAlloc.ConcEnds.C58_push_partial",
    "MpcAlloc.ConcEnds.C58_marks_partial",
    "MpcAlloc.ConcEnds.C58_drained_partial",
    "MpcAlloc.ConcEnds.C58_once_partial",
    "MpcAlloc.ConcEnds.C58_final_partial",
    "MpcAlloc.ConcEnds.C58_when_partial",
    "MpcAlloc.ConcEnds.C58_when_blocks_partial",
    "MpcAlloc.ConcEnds.C58_last_huge_partial",
    "MpcAlloc.ConcEnds.C58_returned_partial",
    "MpcAlloc.ConcEnds.C58_refuted_locked",
    "MpcAlloc.ConcEnds.C58_refuted_late",
    "MpcAlloc.ConcEnds.C58_refuted_empty",
    "MpcAlloc.ConcEnds.C58_refuted",
    "MpcAlloc.ConcEnds.C58_refuted_exit",
    "MpcAlloc.ConcEnds.C58_refuted_lost",
    "MpcAlloc.ConcEnds.C58_refuted_window"
   ],
   "note": "Proved for sizes that do not wrap around and fit their bloc (PSize), aligned blocks that are not made larger by realloc, and threads that make no call after their end; work inside one chain is one step (the lock of an ended chain is not cut into steps, the counter of blocs changes at once, see C56), accesses are sequentially consistent. C58_drained_partial assumes that no push to the queue is in progress between the flag and the handler; without this a block is lost for ever (C58_refuted_lost, C58_refuted_late). Also false: the free of the last block below the huge limit uses the released chain (C58_refuted_locked, C58_refuted), the thread that ends may find its chain released before its last purge (C58_refuted_exit), and a chain whose last block goes before its handler is set is never released (C58_refuted_window, C58_refuted_empty). C58_steps_partial shows that these are the only failures of a step apart from lack of memory."
  },
  {
   "property": "C59",
   "status": "partial",
   "theorems": [
    "MpcAlloc.NumaSource.C59_bound_partial",
    "MpcAlloc.NumaSource.C59_others",
    "MpcAlloc.NumaSource.C59_same",
    "MpcAlloc.NumaSource.C59_refuted_default",
    "MpcAlloc.NumaSource.C59_refuted_refusal",
    "MpcAlloc.NumaSource.C59_refuted_cleanup",
    "MpcAlloc.NumaSource.C59_refuted_migrate"
   ],
   "note": "C59_bound_partial: proved for histories in which hwloc and the kernel do the bindings that are asked for, without migration and before the cleanup. C59_others and C59_same hold for all histories. False of the code otherwise: a refusal is not noticed (C59_refuted_refusal), a request after the cleanup uses the freed node set (C59_refuted_cleanup), a migrated source hands out memory of two nodes (C59_refuted_migrate), and the sources of the nodes used by malloc are not strict and bind nothing (C59_refuted_default)."
  },
  {
   "property": "C60",
   "status": "partial",
   "theorems": [
    "MpcAlloc.NodeSelect.C60_first",
    "MpcAlloc.NodeSelect.C60_source_partial",
    "MpcAlloc.NodeSelect.C60_default",
    "MpcAlloc.NodeSelect.C60_migrate_partial",
    "MpcAlloc.NodeSelect.C60_refuted_bound",
    "MpcAlloc.NodeSelect.C60_refuted_never",
    "MpcAlloc.NodeSelect.C60_refuted_robin",
    "MpcAlloc.NodeSelect.C60_refuted_migrate",
    "MpcAlloc.NodeSelect.C60_refuted_unbind",
    "MpcAlloc.NodeSelect.C60_refuted_counter"
   ],
   "note": "Proved: the source given is always set (C60_source_partial, when hwloc names existing nodes, and without round robin on a machine without nodes), the first bit of a bitmap (C60_first), who gets the default source (C60_default), and the migration once a node is found (C60_migrate_partial). The main claim is false of the code: the answer of hwloc is taken for a failure, so that a thread bound to a node gets the default source (C60_refuted_bound, C60_refuted_never) and its migration changes nothing (C60_refuted_migrate); round robin replaces every node (C60_refuted_robin); a chain on the source of a node crashes at its migration (C60_refuted_unbind); after a change of source blocs go back to the wrong source (C60_refuted_counter). hwloc is modelled by its answers; bitmaps are finite."
  },
  {
   "property": "C61",
   "status": "proved",
   "theorems": [
    "MpcAlloc.NodeSelect.C61_hbw"
   ],
   "note": "hwloc 2; the kinds of the nodes in the order of their logical index. Node selection only: the allocation itself is that of C56."
  },
  {
   "property": "C62",
   "status": "partial",
   "theorems": [
    "MpcAlloc.PmemFile.C62_round_partial",
    "MpcAlloc.PmemFile.C62_size",
    "MpcAlloc.PmemFile.C62_create",
    "MpcAlloc.PmemFile.C62_success",
    "MpcAlloc.PmemFile.C62_blocks_partial",
    "MpcAlloc.PmemFile.C62_destroy",
    "MpcAlloc.PmemFile.C62_null_partial",
    "MpcAlloc.PmemFile.C62_free",
    "MpcAlloc.PmemFile.C62_refuted_round",
    "MpcAlloc.PmemFile.C62_refuted_huge",
    "MpcAlloc.PmemFile.C62_refuted_map",
    "MpcAlloc.PmemFile.C62_refuted_leak",
    "MpcAlloc.PmemFile.C62_refuted_reuse"
   ],
   "note": "Proved: the creation when the system calls succeed (C62_create), the destruction (C62_destroy), the blocks (C62_blocks_partial, sizes that do not wrap around), the size up to 2^24 bytes or with 24 significant bits (C62_round_partial), the error for other sizes (C62_size). False of the code: sizes through a float (C62_refuted_round, C62_refuted_huge), a failed mapping gives a pool at -1 (C62_refuted_map), failures leak the descriptor and the file (C62_refuted_leak), blocks given back are not used again (C62_refuted_reuse). System calls are modelled by their answers."
  },
  {
   "property": "C63",
   "status": "partial",
   "theorems": [
    "MpcAlloc.C63_inside_partial",
    "MpcAlloc.C63_null",
    "MpcAlloc.C63_aligned_partial",
    "MpcAlloc.C63_refuted_size",
    "MpcAlloc.C63_refuted_base"
   ],
   "note": "Proved for the first call on a chain over one buffer at any address: requests that fit after the rounding to 16 (C63_inside_partial), aligned requests for buffers at most 8 bytes above a multiple of 16 (C63_aligned_partial), requests that do not fit (C63_null). False of the code: a buffer whose size is no multiple of 16 is overrun by a header when a request fits only without the rounding (C63_refuted_size), and blocks leave their chunk when the buffer starts 9 to 15 bytes above a multiple of 16 (C63_refuted_base). Later calls: C02, for buffers aligned to 16."
  },
  {
   "property": "C64",
   "status": "proved",
   "theorems": [
    "MpcAlloc.QueueTso.C64_refines",
    "MpcAlloc.QueueTso.C64_exactly_once",
    "MpcAlloc.QueueTso.C64_fifo",
    "MpcAlloc.QueueTso.C64_nothing_lost",
    "MpcAlloc.QueueTso.C64_drain_ends",
    "MpcAlloc.QueueTso.C64_refuted_lost",
    "MpcAlloc.QueueTso.C64_refuted_stuck"
   ],
   "note": "Machine with store buffers in order (x86-TSO), simulated by the sequentially consistent one of C25-C27. A block is pushed by a thread when the delayed stores of the other threads into it have arrived (they handed it over through memory). The two refuted theorems show that the order of the earlier stores and the swap is needed, on both sides."
  },
  {
   "property": "C65",
   "status": "proved",
   "theorems": [
    "MpcAlloc.SpinTso.C65_mutual_exclusion",
    "MpcAlloc.SpinTso.C65_reads_last",
    "MpcAlloc.SpinTso.C65_hand_over",
    "MpcAlloc.SpinTso.C65_acquires",
    "MpcAlloc.SpinTso.C65_released",
    "MpcAlloc.SpinTso.C65_refuted_order"
   ],
   "note": "Machine with store buffers in order (x86-TSO); the data are any addresses that are stored into only with the lock. The refuted theorem shows that the order of the stores is needed."
  },
  {
   "property": "C66",
   "status": "partial",
   "theorems": [
    "MpcAlloc.RegionDel.C66_headers",
    "MpcAlloc.RegionDel.C66_put",
    "MpcAlloc.RegionDel.C66_put_succeeds",
    "MpcAlloc.RegionDel.C66_clear",
    "MpcAlloc.RegionDel.C66_del_chain",
    "MpcAlloc.RegionDel.C66_del_refused",
    "MpcAlloc.RegionDel.C66_del",
    "MpcAlloc.RegionDel.C66_del_all",
    "MpcAlloc.RegionDel.C66_cleanup_model",
    "MpcAlloc.RegionDel.C66_cleanup_partial",
    "MpcAlloc.RegionDel.C66_refuted_shared",
    "MpcAlloc.RegionDel.C66_refuted_straddle",
    "MpcAlloc.RegionDel.C66_refuted_stale",
    "MpcAlloc.RegionDel.C66_refuted_twice"
   ],
   "note": "One thread; a header is mapped or not as a whole. Proved for all histories except the last part: the clean-up of a default source is right when nothing else is registered in the regions of the heap and the last region is visited (C66_cleanup_partial). False of the code otherwise: it removes the registrations of all other chains in the region (C66_refuted_shared) and misses the end of a heap that crosses the limit of a region (C66_refuted_straddle). Removing a chain needs the memory of all blocs registered in the region to be mapped (C66_refuted_stale)."
  },
  {
   "property": "C67",
   "status": "partial",
   "theorems": [
    "MpcAlloc.Hooks.C67_same",
    "MpcAlloc.Hooks.C67_same_purge",
    "MpcAlloc.Hooks.C67_no_failure_partial",
    "MpcAlloc.Hooks.C67_alloc_partial",
    "MpcAlloc.Hooks.C67_free_partial",
    "MpcAlloc.Hooks.C67_realloc_partial",
    "MpcAlloc.Hooks.C67_replay_partial",
    "MpcAlloc.Hooks.C67_blocs",
    "MpcAlloc.Hooks.C67_refuted_flush",
    "MpcAlloc.Hooks.C67_refuted_huge",
    "MpcAlloc.Hooks.C67_refuted_null_bloc",
    "MpcAlloc.Hooks.C67_refuted_request",
    "MpcAlloc.Hooks.C67_alloc_event",
    "MpcAlloc.Hooks.C67_free_event",
    "MpcAlloc.Hooks.C67_life",
    "MpcAlloc.Hooks.C67_replay_source_partial",
    "MpcAlloc.Hooks.C67_purge_events_partial",
    "MpcAlloc.Hooks.C67_no_failure_source_partial"
   ],
   "note": "Hooks are observers: they do not call the allocator and do not change its memory. A call that ends with hooks ends in the same way without (C67_same, all states and sources); the events of the blocs are the calls of the source (C67_blocs). The events of blocks, splits and merges and the observer are proved for the valid calls on chains over user buffers (Reach/ValidOp); the observer, huge blocks, remote frees and purges on chains fed by the light source (STrace). False of the code: the hook of the purge makes every purge of a non-empty queue fault or loop (C67_refuted_flush), the hook of huge allocations faults when there is no memory (C67_refuted_huge), a refused request is announced as a bloc (C67_refuted_null_bloc), the size asked for is wrong with a boundary (C67_refuted_request). Missing: splits and merges with a source, concurrent calls, the hooks of the POSIX layer."
  },
  {
   "property": "C68",
   "status": "proved",
   "theorems": [
    "MpcAlloc.Drf.C68_exclusive",
    "MpcAlloc.Drf.C68_reads_last",
    "MpcAlloc.Drf.C68_no_delay",
    "MpcAlloc.Drf.C68_quiet",
    "MpcAlloc.Drf.C68_section",
    "MpcAlloc.Drf.C68_atomic",
    "MpcAlloc.Drf.C68_hand_over",
    "MpcAlloc.Drf.C68_refuted_order"
   ],
   "note": "Stores delayed in order, one queue per thread (x86-TSO). The accesses between lock and unlock are single steps that interleave with those of all other threads; any number of locks. Who may access which address (owner, holder of the lock, receiver of a message) is a rule of the machine: it is the discipline of the models of C29, C49 and C56. The region tables are read without a lock (C52, C70); the remote free queue has its own model (C64). Without stores in order the property is false (C68_refuted_order)."
  },
  {
   "property": "C69",
   "status": "partial",
   "theorems": [
    "MpcAlloc.RegionSearch.C69_registered",
    "MpcAlloc.RegionSearch.C69_no_abort",
    "MpcAlloc.RegionSearch.C69_removed",
    "MpcAlloc.RegionSearch.C69_found_partial",
    "MpcAlloc.RegionSearch.C69_found_own_partial",
    "MpcAlloc.RegionSearch.C69_found_aligned_partial",
    "MpcAlloc.RegionSearch.C69_foreign_partial",
    "MpcAlloc.RegionSearch.C69_ends",
    "MpcAlloc.RegionSearch.C69_refuted_race",
    "MpcAlloc.RegionSearch.C69_refuted_fault"
   ],
   "note": "Each access to an entry is a step. Proved when the compiler makes one load of the reads of one entry (C69_found_partial, C69_foreign_partial), and for each read as a load when the address is not in the last, shared, entry of its bloc, in particular for aligned blocs (C69_found_own_partial, C69_found_aligned_partial). False of the code as it is written: a live address is not found, or found in the wrong bloc, when the bloc that shares the entry is removed between two reads (C69_refuted_race); a search for an address in no bloc may read the header of NULL or of memory that was given back (C69_refuted_fault). Addresses above 2 MB (C19_refuted below). Not in this model: the creation of the tables (C52), delayed stores (C70)."
  },
  {
   "property": "C70",
   "status": "proved",
   "theorems": [
    "MpcAlloc.C70_found",
    "MpcAlloc.C70_no_lock",
    "MpcAlloc.C70_no_abort",
    "MpcAlloc.C70_removed",
    "MpcAlloc.C70_answer",
    "MpcAlloc.C70_same_table",
    "MpcAlloc.C70_one_table",
    "MpcAlloc.C70_exclusive",
    "MpcAlloc.C70_refuted_order",
    "MpcAlloc.C70_refuted_tables",
    "MpcAlloc.C70_refuted_removal"
   ],
   "note": "Stores delayed in order, one queue per thread (x86-TSO); any number of threads, regions and entries. Conditions of the machine: an entry is registered when no bloc stands in it, by a thread that was given the memory after the stores of the removal of the former bloc arrived (needed: C70_refuted_removal); it is removed by a thread that knows of the registration. After the initialisation of the lock (C52). With stores in any order the property is false (C70_refuted_order, C70_refuted_tables). One entry of a search is one read here; the second entry and the headers are in C69. Left out: a failing mmap, which aborts."
  },
  {
   "property": "C71",
   "status": "partial",
   "theorems": [
    "MpcAlloc.C71_calls_partial",
    "MpcAlloc.C71_returns",
    "MpcAlloc.C71_disjoint",
    "MpcAlloc.C71_owner",
    "MpcAlloc.C71_new",
    "MpcAlloc.C71_capture",
    "MpcAlloc.C71_no_new",
    "MpcAlloc.C71_kept",
    "MpcAlloc.C71_taken_back",
    "MpcAlloc.C71_restore",
    "MpcAlloc.C71_egg_refuted",
    "MpcAlloc.C71_null_refuted"
   ],
   "note": "Build without hwloc, calls one at a time, chains made by the allocator; a block with a boundary is grown only through a chain that copies it (C14). False on the egg chain, which has no source: requests of 2 MB get NULL and calloc stores at NULL (C71_egg_refuted); false when a thread is switched to NULL again and again, since each time a new chain is made for it (C71_null_refuted)."
  },
  {
   "property": "C72",
   "status": "partial",
   "theorems": [
    "MpcAlloc.CR.C72_result_partial",
    "MpcAlloc.CR.C72_released_partial",
    "MpcAlloc.CR.C72_null_zero",
    "MpcAlloc.CR.C72_no_failure_partial",
    "MpcAlloc.CR.C72_blocks_partial",
    "MpcAlloc.CR.C72_linearizable_partial",
    "MpcAlloc.CR.C72_progress",
    "MpcAlloc.CR.C72_refuted_atomic"
   ],
   "note": "The steps of C29; the reads of the header by realloc are one step, each byte of the copy is one. A thread may not touch a block that another one is resizing; a block with a boundary is not grown (C14). A realloc that moves its block is two calls in the sequential order, an allocation and a free, with the stores of the copy between; as one step it is not linearizable, another thread may get NULL that would get memory before and after the realloc (C72_refuted_atomic). When NULL is returned the old block is lost (C15). Missing: sizes close to 2^64, chains with a memory source."
  },
  {
   "property": "C73",
   "status": "partial",
   "theorems": [
    "MpcAlloc.RF.C73_linearizable_partial",
    "MpcAlloc.RF.C73_no_failure_partial",
    "MpcAlloc.RF.C73_blocks_partial",
    "MpcAlloc.RF.C73_refuted"
   ],
   "note": "False of the code: the function takes no lock, and C73_refuted is a schedule in which the refill writes a link in a block that another thread has just got. Proved when every refill starts while no thread has the lock and goes to its end before another thread moves (other threads may be anywhere outside the lock). Sizes below 2^63."
  },
  {
   "property": "C74",
   "status": "proved",
   "theorems": [
    "MpcAlloc.C74_range_taken",
    "MpcAlloc.C74_two_buffers"
   ],
   "note": "For all reachable states and all runs of neighbours. Lists and chunks are read by independent walks of the memory (FreeList, BufChunks)."
  },
  {
   "property": "C75",
   "status": "proved",
   "theorems": [
    "MpcAlloc.C75_taken",
    "MpcAlloc.C75_given",
    "MpcAlloc.C75_best_fit_refuted",
    "MpcAlloc.C75_fifo_refuted"
   ],
   "note": "Exact rule, with the lists read by an independent walk of the memory. Best fit and first in first out, which one could expect from the comments, are refuted by concrete runs."
  },
  {
   "property": "C76",
   "status": "partial",
   "theorems": [
    "MpcAlloc.C76_rule",
    "MpcAlloc.C76_usable_constant",
    "MpcAlloc.C76_slack",
    "MpcAlloc.C76_same_size_partial",
    "MpcAlloc.C76_same_size_refuted",
    "MpcAlloc.C76_grow_refuted",
    "MpcAlloc.C76_process_partial",
    "MpcAlloc.C76_inplace",
    "MpcAlloc.C76_chunk_constant_partial",
    "MpcAlloc.C76_again_partial",
    "MpcAlloc.C76_again_refuted",
    "MpcAlloc.C76_tiny_partial",
    "MpcAlloc.C76_interleaved_event_partial",
    "MpcAlloc.C76_interleaved_partial",
    "MpcAlloc.C76_interleaved_rule_partial",
    "MpcAlloc.C76_interleaved_inplace",
    "MpcAlloc.C76_interleaved_again_partial",
    "MpcAlloc.C76_usable_process_partial",
    "MpcAlloc.C76_usable_interleaved_partial",
    "MpcAlloc.C76_usable_ends_partial",
    "MpcAlloc.C76_interleaved_who_partial",
    "MpcAlloc.ConcEnds.C76_ends_event_partial",
    "MpcAlloc.ConcEnds.C76_ends_partial",
    "MpcAlloc.ConcEnds.C76_ends_rule_partial",
    "MpcAlloc.ConcEnds.C76_ends_again_partial"
   ],
   "note": "The rule and the constancy of the usable size hold for all blocks. That a realloc to the same size leaves the block alone is proved for 16 bytes and for 24 bytes or more, and refuted for each other size; extension in place is refuted. For a process the rule and the constancy are proved for the valid calls (C76_process_partial, C76_chunk_constant_partial, C76_usable_process_partial), and the same size for 16 bytes and from 24 bytes on (C76_again_partial), but for 15 sizes (C76_again_refuted); below 8 bytes a block is always moved (C76_tiny_partial). For interleaved calls, and when threads end while others run, the rule (for the step that resizes a block in its chain) and the constancy (of the chunk, and of the usable size, with or without boundary) are proved for the valid calls."
  },
  {
   "property": "C77",
   "status": "proved",
   "theorems": [
    "MpcAlloc.C77_canonical",
    "MpcAlloc.C77_no_trace",
    "MpcAlloc.C77_success",
    "MpcAlloc.C77_same_service",
    "MpcAlloc.C77_unmerged_refuted"
   ],
   "note": "Chains that merge (the default). For a chain that does not merge the claim is refuted by a concrete run."
  },
  {
   "property": "C78",
   "status": "partial",
   "theorems": [
    "MpcAlloc.C78_blocs_bounded_partial",
    "MpcAlloc.C78_refuted",
    "MpcAlloc.C78_lost_forever"
   ],
   "note": "The bound on the blocs holds for requests outside 1048529 to 1048560 bytes. For a request of 1048545 to 1048560 bytes both parts are refuted: in every reachable state, malloc and free of it lose its bytes for every continuation of the run."
  },
  {
   "property": "C79",
   "status": "partial",
   "theorems": [
    "MpcAlloc.C79_dump_partial",
    "MpcAlloc.C79_first_refuted",
    "MpcAlloc.C79_empty_refuted",
    "MpcAlloc.C79_endless_refuted"
   ],
   "note": "Proved: called with the first chunk and the end mark, all chunks but the first are printed. The rest is false of the code, in every reachable state."
  },
  {
   "property": "C80",
   "status": "partial",
   "theorems": [
    "MpcAlloc.Pagemap.C80_one_inside",
    "MpcAlloc.Pagemap.C80_range",
    "MpcAlloc.Pagemap.C80_open_partial",
    "MpcAlloc.Pagemap.C80_exit_refuted",
    "MpcAlloc.Pagemap.C80_once_refuted"
   ],
   "note": "The lock and the entries are proved for all runs; the file is opened at most once and used only while open as long as the process does not end. With the handler of the end of the process both are false of the code."
  },
  {
   "property": "C81",
   "status": "partial",
   "theorems": [
    "MpcAlloc.C81_cache",
    "MpcAlloc.C81_cache_interleaved",
    "MpcAlloc.C81_blocs_partial",
    "MpcAlloc.C81_limit_refuted",
    "MpcAlloc.ConcEnds.C81_cache_ends",
    "MpcAlloc.ConcEnds.C81_blocs_ends_partial"
   ],
   "note": "The bound of the cache holds for all valid histories (C81_cache) and interleavings (C81_cache_interleaved), also when threads end while others run (ConcEnds.C81_cache_ends). The number of blocs is proved for requests that do not need a chunk of exactly 1 MB; otherwise false (C78_refuted). keep_mem itself is not a limit of the code (C81_limit_refuted)."
  },
  {
   "property": "C82",
   "status": "partial",
   "theorems": [
    "MpcAlloc.C82_filled_partial",
    "MpcAlloc.C82_bytes_partial",
    "MpcAlloc.C82_filled_interleaved_partial",
    "MpcAlloc.C82_bytes_interleaved_partial",
    "MpcAlloc.C82_bytes_ends_partial",
    "MpcAlloc.C82_overhead_partial",
    "MpcAlloc.C82_chunk_partial",
    "MpcAlloc.C82_refuted"
   ],
   "note": "Proved for sizes that do not wrap around and fit their bloc (PSize) and that do not need a chunk of exactly 1 MB (CleanSize); for the latter a bloc without block stays (C82_refuted). The bytes of a block are those of its chunk, as its header says: a block made smaller in place keeps its chunk (C76)."
  },
  {
   "property": "C83",
   "status": "partial",
   "theorems": [
    "MpcAlloc.C83_slack_partial",
    "MpcAlloc.C83_bound_partial",
    "MpcAlloc.C83_bytes_partial",
    "MpcAlloc.C83_interleaved_partial",
    "MpcAlloc.C83_interleaved_bound_partial",
    "MpcAlloc.C83_interleaved_bytes_partial",
    "MpcAlloc.ConcEnds.C83_ends_partial",
    "MpcAlloc.ConcEnds.C83_ends_bound_partial",
    "MpcAlloc.ConcEnds.C83_ends_bytes_partial"
   ],
   "note": "Proved for calls one at a time, interleaved, and with threads that end, for sizes that do not wrap around and fit their bloc (PSize); the bound of the process also needs that no request needs a chunk of exactly 1 MB (CleanSize, C82_refuted)."
  },
  {
   "property": "C84",
   "status": "partial",
   "theorems": [
    "MpcAlloc.C84_cleanup_partial",
    "MpcAlloc.C84_refuted"
   ],
   "note": "Proved: the clean-up ends normally, gives back the heap and changes nothing else but the region and the page behind the heap. That this page is left alone is refuted, in every state in which it is mapped."
  }
 ]
}