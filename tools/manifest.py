#!/usr/bin/env python3
"""Writes ../MANIFEST.json from the list below."""
import json, os
C = []
def c(p, st, th, note):
    C.append({"property": p, "status": st, "theorems": ["MpcAlloc." + t for t in th.split()], "note": note})

VALID = "Histories are those of Spec.lean (Reach/ValidOp): request sizes whose chunk size does not overflow, enlarging realloc only of blocks obtained without boundary. "
c("C01", "partial", "C01_live_blocks_disjoint_partial C01_refuted", VALID + "Missing: the other sizes, for which the property is false of the code (C01_refuted: 2^64-8 bytes).")
c("C02", "partial", "C02_inside_buffers_partial C02_noninterference_partial C02_refuted", VALID + "Missing: the other sizes, for which the property is false (C02_refuted).")
c("C03", "partial", "C03_large_enough_partial C03_refuted", "Proved for sizes whose chunk size does not overflow; false near 2^64 (C03_refuted).")
c("C04", "partial", "C04_live_data_kept_partial C04_refuted", VALID + "False for sizes near 2^64 (C04_refuted).")
c("C05", "partial", "C05_alignment_partial C03_large_enough_partial C05_refuted", "Alignment and size for sizes whose chunk size does not overflow; false near 2^64 (C05_refuted).")
c("C06", "partial", "C06_valid_calls_succeed_partial C06_refuted", VALID + "A chain that registers its memory also needs free region entries (RegOK). False from 2^63 bytes on a chain with a free chunk of exactly 2 MB (C06_refuted).")
c("C07", "proved", "C07_one_free_chunk C07_can_destroy C07_capacity", VALID)
c("C08", "proved", "C08_coalesced", VALID)
c("C09", "partial", "C09_alloc_succeeds_partial C09_refuted", "Proved for free chunks up to 2 MB; false for larger ones (C09_refuted).")
c("C10", "proved", "C10_failing_alloc_no_effect", "Any size and boundary; the buffers are below address 2^63, as every x86-64 user address.")
c("C11", "proved", "C11_free_null C11_free_foreign", "Any state of chain and memory.")
c("C12", "partial", "C12_double_free_partial C12_double_free_missed C12_refuted", "Proved for unaligned blocks whose left neighbour is in use, and without merging. False when both neighbours are free (C12_double_free_missed, C12_refuted).")
c("C13", "partial", "C13_realloc_keeps_data_partial C13_any_block_partial C13_refuted", "C13_realloc_keeps_data_partial: the calls of Spec.lean (Reach/ValidOp). C13_any_block_partial: any block, also obtained with a boundary, made larger or smaller, whenever the call returns. False for such a block when the new chunk lies right behind the old one (C13_refuted: memcpy of overlapping areas). Missing: sizes whose chunk size overflows.")
c("C14", "partial", "C14_realloc_size_partial C14_refuted", VALID + "False for blocks obtained with a boundary (C14_refuted).")
c("C15", "partial", "C15_other_blocks_kept_partial C15_refuted", "False of the code (C15_refuted): the old block is freed. The partial theorem keeps the other live blocks.")
c("C16", "partial", "C16_lookup_exact_partial C16_refuted", "Exactness and agreement are proved from 32 bytes to 2 MB, and the constant time lookup ends for every size. The binary search does not end above 2 MB (C16_refuted).")
c("C17", "proved", "C17_header_round_trip C17_field_updates C17_fields_independent", "")
c("C18", "proved", "C18_pointer_leads_back", "Any boundary below 2^56 that does not run past the end of the address space.")
c("C19", "partial", "C19_lookup_partial C19_refuted", "Proved for addresses from 2 MB to 2^48; false in the first 2 MB (C19_refuted). Histories are those of RegHist.")
c("C20", "partial", "C20_registration_partial C20_refuted", "Registration never aborts; answers unchanged for addresses from 2 MB to 2^48; false for the address 2 MB (C20_refuted).")
LIGHT = "Histories are those of LHist: requests of whole pages, frees, segments given by hand, writes outside the source's own data, other mappings; the kernel only gives pages that are not in use."
c("C21", "proved", "C21_no_double_hand_out", LIGHT)
c("C22", "proved", "C22_exact_accounting", LIGHT)
c("C23", "proved", "C23_cache_bounded", LIGHT)
POSIX = "Histories are those of PosixSpec.lean (PReach/PValid): any number of threads, calls one at a time, malloc, memalign, calloc, free (also of blocks of other threads), realloc, client stores; any answers of the kernel. Sizes do not wrap around and, from the huge limit on, fit in their bloc (PSize). "
c("C24", "partial", "C24_blocs_returned_partial C24_refuted", POSIX + "Requests of 1048529 to 1048560 bytes are excluded (CleanOp); with them the property is false (C24_refuted).")
c("C30", "partial", "C30_blocks_disjoint_partial C30_pending_partial C30_remote_free C30_calls_partial C30_calls_any_partial", POSIX + "Interleaved calls: C49. Missing: the other sizes, and the growing realloc of an aligned block by its own thread (false, C14_refuted).")
c("C31", "partial", "C31_zeroed_partial C31_wraps C31_refuted", POSIX + "False when the product wraps around (C31_refuted).")
c("C32", "partial", "C32_memalign_partial C32_einval C32_no_enomem C32_refuted C32_refuted_zero", "Proved for powers of two from 8 on when the kernel has memory. The error codes are wrong: EINVAL exactly for 1, 2 and 4 (C32_einval), never ENOMEM (C32_no_enomem), 0 and 24 accepted (C32_refuted).")
c("C25", "proved", "Queue.C25_exactly_once Queue.C25_nothing_lost", "Interleavings of atomic accesses, sequentially consistent memory.")
c("C26", "proved", "Queue.C26_fifo", "Interleavings of atomic accesses, sequentially consistent memory.")
c("C27", "proved", "Queue.C27_drain_ends", "Interleavings of atomic accesses, sequentially consistent memory.")
c("C28", "proved", "Spin.C28_mutual_exclusion Spin.C28_acquires Spin.C28_swap_result", "Interleavings of atomic accesses, sequentially consistent memory.")
c("C29", "partial", "C29_linearizable_partial C29_no_failure_partial C29_blocks_partial C29_one_at_a_time C29_real_time C29_progress", "Any number of threads, every interleaving of the steps: lock word accesses, header reads before the lock, the code between lock and unlock as one step, header writes after the unlock, client stores. The code between lock and unlock as one step is justified by C68, also with delayed stores. Realloc by concurrent threads: C72. Refill by concurrent threads: C73. Missing: sizes close to 2^64.")
c("C33", "partial", "C33_once_partial C33_when_partial C33_when_blocks_partial C33_exit_partial C33_calls_partial C33_last_huge_partial C33_serial_partial C33_refuted C33_refuted_locked C33_refuted_empty C33_refuted_race", "Calls one at a time, any number of threads, every history after the end of a thread in which its blocks are freed and not resized: the handler is called at most once, and exactly when the last bloc goes if the thread had a live block. False of the code when the chain is already empty (never called, C33_refuted_empty), when the last block is below the huge limit (the released chain is unlocked, C33_refuted_locked), and when two threads free the last huge blocks together (twice or never, C33_refuted_race).")
c("C34", "partial", "RoundRobin.C34_round_robin_partial RoundRobin.C34_refuted RoundRobin.C34_two_in_critical_section RoundRobin.C34_no_node", "Proved when the first call ends before the others start; false when two threads make the first call together (C34_refuted), and a division by zero without NUMA node.")
c("C35", "partial", "Pmem.C35_pool_partial Pmem.C35_refuted", "Proved for sizes that do not wrap around; false otherwise (C35_refuted).")
c("C36", "partial", "C36_shared_partial", "Proved for segments whose address, size and chain structure size are multiples of 16 and that leave at least 96 bytes. Missing: other alignments; with allocation hooks compiled in the structure has 1688 bytes and blocks are only 8-aligned.")
c("C37", "partial", "C37_init_partial C37_refuted C37_refuted_init", "False of the code: two commas are missing in the class table, so initialisation over more than 2 MB never ends (C37_refuted_init), and a heap of 2 MB, whose initialisation ends (C37_init_partial), serves no request (C37_refuted).")
c("C38", "partial", "C38_stat_partial C38_refuted_min C38_refuted_thread_safe C38_refuted_big C38_count_entries", "The counts and sums are exact for chunks up to 2 MB; the minimum is always 0 (C38_refuted_min), a thread-safe chain deadlocks on its own lock (C38_refuted_thread_safe), larger chunks are not counted (C38_refuted_big), and the count of queue entries does not return (C38_count_entries).")
c("C39", "proved", "C39_usable_size", VALID)
c("C40", "proved", "C40_freed_block_reusable", VALID)
c("C41", "proved", "C41_cleanup C41_cleanup_aborts C41_lock_kept", LIGHT + " The lock stays taken afterwards (C41_lock_kept).")
c("C42", "partial", "C42_served_partial C42_refuted", LIGHT + " Proved when the kernel has pages; false on a refusal: the header is written at MAP_FAILED (C42_refuted).")
c("C43", "partial", "C43_usable_size_partial C43_whole_partial C43_interleaved_partial C43_ends_partial C43_refuted", POSIX + "False for 2 MB - 48 bytes (C43_refuted). The usable bytes of two blocks are different ones (C43_whole_partial), also for interleaved calls (C43_interleaved_partial) and when threads end while others run (C43_ends_partial).")
c("C44", "proved", "C44_small_overhead", POSIX)
c("C45", "partial", "C45_realloc_partial", POSIX + "Missing: an aligned block that its own thread makes larger (C14_refuted), and the other sizes.")
c("C46", "partial", "C46_structures_partial C46_calls_partial C46_spawn_keeps C46_first_threads_partial C46_refuted", "Build without hwloc, calls one at a time; the start-up stages, the egg chain over its 2 MB buffer, and the calls of C30. Proved for the first 1224 threads; false beyond: the egg chain has no memory source, and after at most 1248 threads in the life of the process the next one uses NULL (C46_refuted).")
c("C47", "partial", "C47_destroy_partial C47_refuted", "Proved when the registered blocs of the chain are in the region of 1 TB of its base address, for addresses above 2 MB; false otherwise (C47_refuted).")
c("C48", "partial", "C48_values_partial C48_usable_partial C48_flags_refused C48_refuted C48_number C48_no_number C48_refuted_negative", "Proved for decimal numbers without overflow, flags true or false, and a factor that is not 0; what any number with blanks, sign and rest gives is C48_number. False otherwise: a factor of 0, a text that is not a number or 2^32 is accepted and realloc divides by zero (C48_refuted); negative sizes are accepted (C48_refuted_negative).")
CONC = "Interleavings of any number of threads (MReach, ConcPosix.lean): each access to a remote free queue is a step; the work of a thread on its own chain (with the source, under its lock), a search in the regions, and a copy or clearing of a block known to one thread only are one step each. Sequentially consistent memory. Excluded: sizes that wrap around or do not fit in their bloc (PSize), and the growing realloc of an aligned block by its own thread. "
c("C49", "partial", "C49_blocks_disjoint_partial C49_steps_any_partial C49_steps_partial C49_record C49_start C49_spawn_partial C49_blocs_returned_partial", CONC + "Lack of memory is not detected by the code: the step is then undefined. The return of all memory excludes requests of 1048529 to 1048560 bytes (C24_refuted).")
c("C50", "partial", "C50_owner_frees_partial C50_entered_partial C50_free_step_partial C50_nothing_lost_partial C50_push_partial", CONC)
c("C51", "partial", "C51_call_ends_partial C51_no_deadlock_partial C51_push_ends", CONC + "A call may also stop at a request for which the kernel has no memory.")
c("C52", "partial", "RegionInit.C52_registered_partial RegionInit.C52_lookup_partial RegionInit.C52_refuted RegionInit.C52_refuted_lock", "Proved when the first registration of the process ends before another thread begins one, as in the POSIX layer, where the start-up is under a mutex. False otherwise: the flag of the initialisation is set before the tables are wiped (C52_refuted), and two initialisations undo the lock (C52_refuted_lock). Left out: a failing mmap; removals and delayed stores are in C70.")
c("C53", "partial", "BaseInit.C53_set_partial BaseInit.C53_default_partial BaseInit.C53_robin_partial BaseInit.C53_refuted BaseInit.C53_refuted_nodes", "Up to 128 NUMA nodes. Proved without hwloc or without round robin, and with round robin for threads that do not pick their source during the NUMA phase of the start-up; false during it (C53_refuted) and for machines without NUMA node (C53_refuted_nodes). The call of the round robin counter is one step (C34 has its steps).")
c("C54", "partial", "NumaStat.C54_pages_partial NumaStat.C54_unknown_partial NumaStat.C54_nomap_partial NumaStat.C54_chain_partial NumaStat.C54_check_partial NumaStat.C54_refuted_unaligned NumaStat.C54_refuted_2GB NumaStat.C54_refuted_no_node NumaStat.C54_refuted_unavailable NumaStat.C54_refuted_order NumaStat.C54_refuted_check NumaStat.C54_refuted_chain", "Proved for segments of whole pages up to 2 GB (4 GB without the page map) when the kernel gives page order 12 and a node for each page in memory (pages with an error or a node from 128 on go to the last index, C54_unknown_partial), and for chains whose blocs have one entry each. False otherwise: C54_refuted_*. Rounding of floats in the check is left out.")
c("C55", "partial", "NumaMigrate.C55_segment_partial NumaMigrate.C55_chain_partial NumaMigrate.C55_source_partial NumaMigrate.C55_refuted_content NumaMigrate.C55_refuted_struct NumaMigrate.C55_refuted_reset NumaMigrate.C55_refuted_source", "Proved for existing nodes and the migration of structure and content together. False otherwise: the flag of the content is not used (C55_refuted_content, C55_refuted_struct), -1 dereferences NULL (C55_refuted_reset), a source keeps its node (C55_refuted_source). hwloc refusing a binding is left out.")
c("C56", "partial", "OnNode.C56_blocks_partial OnNode.C56_lookup_partial OnNode.C56_no_failure_partial OnNode.C56_one_at_a_time OnNode.C56_progress_partial OnNode.C56_free_ends_partial OnNode.C56_nothing_lost_partial OnNode.C56_node OnNode.C56_count_partial OnNode.C56_refuted_count", "Proved for boundaries that are powers of two, sizes that do not wrap around and that fit their bloc (PSize), aligned blocks that do not grow by realloc; the code under the lock and one exchange with the source are single steps; all memory is given back when no request was just below the huge limit. The counter of blocs is updated without lock for huge blocks: C56_refuted_count; it is right in executions where nobody changes it while another thread is between its read and its write: C56_count_partial.")
c("C57", "partial", "Ends.C57_blocks_partial Ends.C57_calls_partial Ends.C57_resize_partial Ends.C57_once_partial Ends.C57_running_partial Ends.C57_when_partial Ends.C57_when_blocks_partial Ends.C57_exit_partial Ends.C57_last_huge_partial Ends.C57_returned_partial Ends.C57_refuted_locked Ends.C57_refuted_empty Ends.C57_refuted", "Proved for sizes that do not wrap around and fit their bloc (PSize), aligned blocks that are not made larger by realloc, calls one after the other, and threads that make no call after their end (the egg chain that would serve them is not part of this model); the memory of a released chain structure is not reused. False for the free of the last block of an ended thread below the huge limit, which uses the released chain (C57_refuted_locked, C57_refuted), and for a thread that ends without block, whose chain is never released (C57_refuted_empty).")
c("C58", "partial", "ConcEnds.C58_blocks_partial ConcEnds.C58_steps_partial ConcEnds.C58_push_partial ConcEnds.C58_marks_partial ConcEnds.C58_drained_partial ConcEnds.C58_once_partial ConcEnds.C58_final_partial ConcEnds.C58_when_partial ConcEnds.C58_when_blocks_partial ConcEnds.C58_last_huge_partial ConcEnds.C58_returned_partial ConcEnds.C58_refuted_locked ConcEnds.C58_refuted_late ConcEnds.C58_refuted_empty ConcEnds.C58_refuted ConcEnds.C58_refuted_exit ConcEnds.C58_refuted_lost ConcEnds.C58_refuted_window", "Proved for sizes that do not wrap around and fit their bloc (PSize), aligned blocks that are not made larger by realloc, and threads that make no call after their end; work inside one chain is one step (the lock of an ended chain is not cut into steps, the counter of blocs changes at once, see C56), accesses are sequentially consistent. C58_drained_partial assumes that no push to the queue is in progress between the flag and the handler; without this a block is lost for ever (C58_refuted_lost, C58_refuted_late). Also false: the free of the last block below the huge limit uses the released chain (C58_refuted_locked, C58_refuted), the thread that ends may find its chain released before its last purge (C58_refuted_exit), and a chain whose last block goes before its handler is set is never released (C58_refuted_window, C58_refuted_empty). C58_steps_partial shows that these are the only failures of a step apart from lack of memory.")
c("C59", "partial", "NumaSource.C59_bound_partial NumaSource.C59_others NumaSource.C59_same NumaSource.C59_refuted_default NumaSource.C59_refuted_refusal NumaSource.C59_refuted_cleanup NumaSource.C59_refuted_migrate", "C59_bound_partial: proved for histories in which hwloc and the kernel do the bindings that are asked for, without migration and before the cleanup. C59_others and C59_same hold for all histories. False of the code otherwise: a refusal is not noticed (C59_refuted_refusal), a request after the cleanup uses the freed node set (C59_refuted_cleanup), a migrated source hands out memory of two nodes (C59_refuted_migrate), and the sources of the nodes used by malloc are not strict and bind nothing (C59_refuted_default).")
c("C60", "partial", "NodeSelect.C60_first NodeSelect.C60_source_partial NodeSelect.C60_default NodeSelect.C60_migrate_partial NodeSelect.C60_refuted_bound NodeSelect.C60_refuted_never NodeSelect.C60_refuted_robin NodeSelect.C60_refuted_migrate NodeSelect.C60_refuted_unbind NodeSelect.C60_refuted_counter", "Proved: the source given is always set (C60_source_partial, when hwloc names existing nodes, and without round robin on a machine without nodes), the first bit of a bitmap (C60_first), who gets the default source (C60_default), and the migration once a node is found (C60_migrate_partial). The main claim is false of the code: the answer of hwloc is taken for a failure, so that a thread bound to a node gets the default source (C60_refuted_bound, C60_refuted_never) and its migration changes nothing (C60_refuted_migrate); round robin replaces every node (C60_refuted_robin); a chain on the source of a node crashes at its migration (C60_refuted_unbind); after a change of source blocs go back to the wrong source (C60_refuted_counter). hwloc is modelled by its answers; bitmaps are finite.")
c("C61", "proved", "NodeSelect.C61_hbw", "hwloc 2; the kinds of the nodes in the order of their logical index. Node selection only: the allocation itself is that of C56.")
c("C62", "partial", "PmemFile.C62_round_partial PmemFile.C62_size PmemFile.C62_create PmemFile.C62_success PmemFile.C62_blocks_partial PmemFile.C62_destroy PmemFile.C62_null_partial PmemFile.C62_free PmemFile.C62_refuted_round PmemFile.C62_refuted_huge PmemFile.C62_refuted_map PmemFile.C62_refuted_leak PmemFile.C62_refuted_reuse", "Proved: the creation when the system calls succeed (C62_create), the destruction (C62_destroy), the blocks (C62_blocks_partial, sizes that do not wrap around), the size up to 2^24 bytes or with 24 significant bits (C62_round_partial), the error for other sizes (C62_size). False of the code: sizes through a float (C62_refuted_round, C62_refuted_huge), a failed mapping gives a pool at -1 (C62_refuted_map), failures leak the descriptor and the file (C62_refuted_leak), blocks given back are not used again (C62_refuted_reuse). System calls are modelled by their answers.")
c("C63", "partial", "C63_inside_partial C63_null C63_aligned_partial C63_refuted_size C63_refuted_base", "Proved for the first call on a chain over one buffer at any address: requests that fit after the rounding to 16 (C63_inside_partial), aligned requests for buffers at most 8 bytes above a multiple of 16 (C63_aligned_partial), requests that do not fit (C63_null). False of the code: a buffer whose size is no multiple of 16 is overrun by a header when a request fits only without the rounding (C63_refuted_size), and blocks leave their chunk when the buffer starts 9 to 15 bytes above a multiple of 16 (C63_refuted_base). Later calls: C02, for buffers aligned to 16.")
c("C64", "proved", "QueueTso.C64_refines QueueTso.C64_exactly_once QueueTso.C64_fifo QueueTso.C64_nothing_lost QueueTso.C64_drain_ends QueueTso.C64_refuted_lost QueueTso.C64_refuted_stuck", "Machine with store buffers in order (x86-TSO), simulated by the sequentially consistent one of C25-C27. A block is pushed by a thread when the delayed stores of the other threads into it have arrived (they handed it over through memory). The two refuted theorems show that the order of the earlier stores and the swap is needed, on both sides.")
c("C65", "proved", "SpinTso.C65_mutual_exclusion SpinTso.C65_reads_last SpinTso.C65_hand_over SpinTso.C65_acquires SpinTso.C65_released SpinTso.C65_refuted_order", "Machine with store buffers in order (x86-TSO); the data are any addresses that are stored into only with the lock. The refuted theorem shows that the order of the stores is needed.")
c("C66", "partial", "RegionDel.C66_headers RegionDel.C66_put RegionDel.C66_put_succeeds RegionDel.C66_clear RegionDel.C66_del_chain RegionDel.C66_del_refused RegionDel.C66_del RegionDel.C66_del_all RegionDel.C66_cleanup_model RegionDel.C66_cleanup_partial RegionDel.C66_refuted_shared RegionDel.C66_refuted_straddle RegionDel.C66_refuted_stale RegionDel.C66_refuted_twice", "One thread; a header is mapped or not as a whole. Proved for all histories except the last part: the clean-up of a default source is right when nothing else is registered in the regions of the heap and the last region is visited (C66_cleanup_partial). False of the code otherwise: it removes the registrations of all other chains in the region (C66_refuted_shared) and misses the end of a heap that crosses the limit of a region (C66_refuted_straddle). Removing a chain needs the memory of all blocs registered in the region to be mapped (C66_refuted_stale).")
c("C67", "partial", "Hooks.C67_same Hooks.C67_same_purge Hooks.C67_no_failure_partial Hooks.C67_alloc_partial Hooks.C67_free_partial Hooks.C67_realloc_partial Hooks.C67_replay_partial Hooks.C67_blocs Hooks.C67_refuted_flush Hooks.C67_refuted_huge Hooks.C67_refuted_null_bloc Hooks.C67_refuted_request Hooks.C67_alloc_event Hooks.C67_free_event Hooks.C67_life Hooks.C67_replay_source_partial Hooks.C67_purge_events_partial Hooks.C67_no_failure_source_partial", "Hooks are observers: they do not call the allocator and do not change its memory. A call that ends with hooks ends in the same way without (C67_same, all states and sources); the events of the blocs are the calls of the source (C67_blocs). The events of blocks, splits and merges and the observer are proved for the valid calls on chains over user buffers (Reach/ValidOp); the observer, huge blocks, remote frees and purges on chains fed by the light source (STrace). False of the code: the hook of the purge makes every purge of a non-empty queue fault or loop (C67_refuted_flush), the hook of huge allocations faults when there is no memory (C67_refuted_huge), a refused request is announced as a bloc (C67_refuted_null_bloc), the size asked for is wrong with a boundary (C67_refuted_request). Missing: splits and merges with a source, concurrent calls, the hooks of the POSIX layer.")
c("C68", "proved", "Drf.C68_exclusive Drf.C68_reads_last Drf.C68_no_delay Drf.C68_quiet Drf.C68_section Drf.C68_atomic Drf.C68_hand_over Drf.C68_refuted_order", "Stores delayed in order, one queue per thread (x86-TSO). The accesses between lock and unlock are single steps that interleave with those of all other threads; any number of locks. Who may access which address (owner, holder of the lock, receiver of a message) is a rule of the machine: it is the discipline of the models of C29, C49 and C56. The region tables are read without a lock (C52, C70); the remote free queue has its own model (C64). Without stores in order the property is false (C68_refuted_order).")
c("C69", "partial", "RegionSearch.C69_registered RegionSearch.C69_no_abort RegionSearch.C69_removed RegionSearch.C69_found_partial RegionSearch.C69_found_own_partial RegionSearch.C69_found_aligned_partial RegionSearch.C69_foreign_partial RegionSearch.C69_ends RegionSearch.C69_refuted_race RegionSearch.C69_refuted_fault", "Each access to an entry is a step. Proved when the compiler makes one load of the reads of one entry (C69_found_partial, C69_foreign_partial), and for each read as a load when the address is not in the last, shared, entry of its bloc, in particular for aligned blocs (C69_found_own_partial, C69_found_aligned_partial). False of the code as it is written: a live address is not found, or found in the wrong bloc, when the bloc that shares the entry is removed between two reads (C69_refuted_race); a search for an address in no bloc may read the header of NULL or of memory that was given back (C69_refuted_fault). Addresses above 2 MB (C19_refuted below). Not in this model: the creation of the tables (C52), delayed stores (C70).")
c("C70", "proved", "C70_found C70_no_lock C70_no_abort C70_removed C70_answer C70_same_table C70_one_table C70_exclusive C70_refuted_order C70_refuted_tables C70_refuted_removal", "Stores delayed in order, one queue per thread (x86-TSO); any number of threads, regions and entries. Conditions of the machine: an entry is registered when no bloc stands in it, by a thread that was given the memory after the stores of the removal of the former bloc arrived (needed: C70_refuted_removal); it is removed by a thread that knows of the registration. After the initialisation of the lock (C52). With stores in any order the property is false (C70_refuted_order, C70_refuted_tables). One entry of a search is one read here; the second entry and the headers are in C69. Left out: a failing mmap, which aborts.")
c("C71", "partial", "C71_calls_partial C71_returns C71_disjoint C71_owner C71_new C71_capture C71_no_new C71_kept C71_taken_back C71_restore C71_egg_refuted C71_null_refuted", "Build without hwloc, calls one at a time, chains made by the allocator; a block with a boundary is grown only through a chain that copies it (C14). False on the egg chain, which has no source: requests of 2 MB get NULL and calloc stores at NULL (C71_egg_refuted); false when a thread is switched to NULL again and again, since each time a new chain is made for it (C71_null_refuted).")
c("C72", "partial", "CR.C72_result_partial CR.C72_released_partial CR.C72_null_zero CR.C72_no_failure_partial CR.C72_blocks_partial CR.C72_linearizable_partial CR.C72_progress CR.C72_refuted_atomic", "The steps of C29; the reads of the header by realloc are one step, each byte of the copy is one. A thread may not touch a block that another one is resizing; a block with a boundary is not grown (C14). A realloc that moves its block is two calls in the sequential order, an allocation and a free, with the stores of the copy between; as one step it is not linearizable, another thread may get NULL that would get memory before and after the realloc (C72_refuted_atomic). When NULL is returned the old block is lost (C15). Missing: sizes close to 2^64, chains with a memory source.")
c("C73", "partial", "RF.C73_linearizable_partial RF.C73_no_failure_partial RF.C73_blocks_partial RF.C73_refuted", "False of the code: the function takes no lock, and C73_refuted is a schedule in which the refill writes a link in a block that another thread has just got. Proved when every refill starts while no thread has the lock and goes to its end before another thread moves (other threads may be anywhere outside the lock). Sizes below 2^63.")
c("C74", "proved", "C74_range_taken C74_two_buffers", "For all reachable states and all runs of neighbours. Lists and chunks are read by independent walks of the memory (FreeList, BufChunks).")
c("C75", "proved", "C75_taken C75_given C75_best_fit_refuted C75_fifo_refuted", "Exact rule, with the lists read by an independent walk of the memory. Best fit and first in first out, which one could expect from the comments, are refuted by concrete runs.")
c("C76", "partial", "C76_rule C76_usable_constant C76_slack C76_same_size_partial C76_same_size_refuted C76_grow_refuted C76_process_partial C76_inplace C76_chunk_constant_partial C76_again_partial C76_again_refuted C76_tiny_partial C76_interleaved_event_partial C76_interleaved_partial C76_interleaved_rule_partial C76_interleaved_inplace C76_interleaved_again_partial C76_usable_process_partial C76_usable_interleaved_partial C76_usable_ends_partial C76_interleaved_who_partial ConcEnds.C76_ends_event_partial ConcEnds.C76_ends_partial ConcEnds.C76_ends_rule_partial ConcEnds.C76_ends_again_partial", "The rule and the constancy of the usable size hold for all blocks. That a realloc to the same size leaves the block alone is proved for 16 bytes and for 24 bytes or more, and refuted for each other size; extension in place is refuted. For a process the rule and the constancy are proved for the valid calls (C76_process_partial, C76_chunk_constant_partial, C76_usable_process_partial), and the same size for 16 bytes and from 24 bytes on (C76_again_partial), but for 15 sizes (C76_again_refuted); below 8 bytes a block is always moved (C76_tiny_partial). For interleaved calls, and when threads end while others run, the rule (for the step that resizes a block in its chain) and the constancy (of the chunk, and of the usable size, with or without boundary) are proved for the valid calls.")
c("C77", "proved", "C77_canonical C77_no_trace C77_success C77_same_service C77_unmerged_refuted", "Chains that merge (the default). For a chain that does not merge the claim is refuted by a concrete run.")
c("C78", "partial", "C78_blocs_bounded_partial C78_refuted C78_lost_forever", "The bound on the blocs holds for requests outside 1048529 to 1048560 bytes. For a request of 1048545 to 1048560 bytes both parts are refuted: in every reachable state, malloc and free of it lose its bytes for every continuation of the run.")
c("C79", "partial", "C79_dump_partial C79_first_refuted C79_empty_refuted C79_endless_refuted", "Proved: called with the first chunk and the end mark, all chunks but the first are printed. The rest is false of the code, in every reachable state.")
c("C80", "partial", "Pagemap.C80_one_inside Pagemap.C80_range Pagemap.C80_open_partial Pagemap.C80_exit_refuted Pagemap.C80_once_refuted", "The lock and the entries are proved for all runs; the file is opened at most once and used only while open as long as the process does not end. With the handler of the end of the process both are false of the code.")
c("C81", "partial", "C81_cache C81_cache_interleaved C81_blocs_partial C81_limit_refuted ConcEnds.C81_cache_ends ConcEnds.C81_blocs_ends_partial", "The bound of the cache holds for all valid histories (C81_cache) and interleavings (C81_cache_interleaved), also when threads end while others run (ConcEnds.C81_cache_ends). The number of blocs is proved for requests that do not need a chunk of exactly 1 MB; otherwise false (C78_refuted). keep_mem itself is not a limit of the code (C81_limit_refuted).")
c("C82", "partial", "C82_filled_partial C82_bytes_partial C82_filled_interleaved_partial C82_bytes_interleaved_partial C82_bytes_ends_partial C82_overhead_partial C82_chunk_partial C82_refuted", "Proved for sizes that do not wrap around and fit their bloc (PSize) and that do not need a chunk of exactly 1 MB (CleanSize); for the latter a bloc without block stays (C82_refuted). The bytes of a block are those of its chunk, as its header says: a block made smaller in place keeps its chunk (C76).")
c("C83", "partial", "C83_slack_partial C83_bound_partial C83_bytes_partial C83_interleaved_partial C83_interleaved_bound_partial C83_interleaved_bytes_partial ConcEnds.C83_ends_partial ConcEnds.C83_ends_bound_partial ConcEnds.C83_ends_bytes_partial", "Proved for calls one at a time, interleaved, and with threads that end, for sizes that do not wrap around and fit their bloc (PSize); the bound of the process also needs that no request needs a chunk of exactly 1 MB (CleanSize, C82_refuted).")
c("C84", "partial", "C84_cleanup_partial C84_refuted", "Proved: the clean-up ends normally, gives back the heap and changes nothing else but the region and the page behind the heap. That this page is left alone is refuted, in every state in which it is mapped.")

json.dump({"claims": C}, open(os.path.join(os.path.dirname(__file__), "..", "MANIFEST.json"), "w"), indent=1)
