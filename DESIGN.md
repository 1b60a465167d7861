# Formal model of mpc-allocator: design

Source: `/repo` (cea-hpc/mpc-allocator, C). Nothing is built or run; every definition is written from the text of the
sources and cites file and lines. Configuration modelled: the release build on x86-64 Linux (`assert` off, `assume_m`
on, `HAVE_MREMAP`, `HAVE_HWLOC`, `HAVE_LINUX_PAGEMAP` and `ENABLE_ALLOC_HOOKS` undefined unless stated).

## 1. Model in one page

* **Memory** is byte addressed (`Mem := Nat -> UInt8`), fields are little-endian (`readLE`/`writeLE`). Chunk headers,
  pad headers, free-list links, macro-bloc headers, region tables' blocs, cache lists of the sources and entries of the
  remote free queue all live in this memory at the offsets of the C structs. The list heads `pool.free_lists[i]` also
  live in it (at `pool.base + 32*i`), because the C code runs through heads and chunks with the same pointer operations.
* **Arithmetic** of `size_t`/`sctk_addr_t` is explicit modulo 2^64 (`add64`, `sub64`); 56-bit fields truncate; the one
  signed result of the code (`sctk_alloc_get_chunk_header_large_size`) is signed in the model.
* **Outcomes**: every modelled call yields `ok`, `abort` (an `assume_m`/`abort`), `ub` (NULL dereference, index out of
  an array, use of a released chain) or `diverge` (endless loop). Loops of the C code are partial functions
  (`partial_fixpoint`, bottom = `diverge`): termination is a theorem, not an assumption.
* **Abstract heap** (`AHeap`): buffers cut into chunks (`free`, `used pad`) in address order plus the contents of the
  48 free lists; `WF` is well-formedness, `MemOK` says that a memory represents it. Each C function is proved to
  simulate an operation on abstract heaps; the user-level properties are consequences.
* **Histories** are inductive relations: `Reach` (one chain over user buffers, Spec), `LHist` (memory source,
  PropsSource), `RegHist` (region table), `PReach` (all threads, PosixSpec), `KReach` (interleaved threads on one
  chain, Concurrent), `MReach` (interleaved threads of the whole process, ConcPosix). Their definitions mention client-visible things only: calls, results, live blocks, stored bytes.
* **Concurrency**: small-step interleavings of any number of threads (spinlock, remote free queue, round robin, calls
  on one thread-safe chain, two huge frees on a marked chain).

## 2. Files (lean/Verif)

| layer | model (definitions that follow the C code) | lemmas | properties |
|-------|--------------------------------------------|--------|------------|
| base | Basic, SizeClass, Header | same files | PropsHeader (C16-C18) |
| pool | Pool | FreeListLemmas, AbsHeap, HeapOps, HeapMem, SplitMerge, Merge, HeapAlloc, HeapFree, HeapUser | |
| chain | Chain, Region, Stat | ChainLemmas, ChainInit, ChainRealloc, History, HistoryLemmas, Samples, DoubleFree | Spec, PropsChain (C01-C09), PropsChain2 (C10-C15, C39, C40), PropsChainNeg, PropsRegion (C19, C20), PropsStat (C38), PropsShared (C36) |
| sources | LightSource, DefaultSource | same, SourceChain, SourceFree, SourceStep | PropsSource (C21-C23, C41, C42), PropsDefault (C37), PropsDefaultClean (C84) |
| process | Posix, Destroy, Egg | PosixInv, PosixOps, DestroyLemmas, ChainStart, EggLemmas | PosixSpec, PropsPosix (C24, C30-C32, C43-C45), PropsUsable (C43), PropsPosixNeg, PropsDestroy (C33), PropsEgg (C46), PropsUnregister (C47) |
| configuration | ConfigEnv | same | PropsConfig, PropsConfigText (C48) |
| threads | Spin, Queue, RoundRobin, Concurrent, RegionInit, BaseInit | same, ConcurrentLemmas | Spin (C28), PropsQueue (C25-C27), RoundRobin (C34), PropsConcurrent (C29), RegionInit (C52), BaseInit (C53) |
| process, interleaved | ConcPosix | ConcLemmas, ConcInv, ConcStep, ConcStep2, ConcReach, ConcProgress | ConcSpec, PropsConcPosix (C49-C51) |
| chains of nodes | ConcSource | ConcSourceLemmas, ConcSourceInv, ConcSourceStep | PropsConcSource (C56) |
| threads that come and go | Ends | EndsLemmas, EndsMarks, EndsStep | PropsEnds (C57) |
| threads that end, interleaved | ConcEnds | ConcEndsFlag, ConcEndsMarks, ConcEndsStep, ConcEndsReach | PropsConcEnds (C58) |
| strict source | NumaSource | NumaSource | PropsNumaSource (C59) |
| node of a thread | NodeSelect | NodeSelect | PropsNodeSelect (C60, C61) |
| files of a pool | PmemFile | PmemFile | PropsPmemFile (C62) |
| buffers of any address and size | Chain, Pool | OddBuffer | PropsOddBuffer (C63) |
| delayed stores | QueueTso, SpinTso | same | PropsQueueTso (C64), PropsSpinTso (C65) |
| code under a lock, accesses split, delayed stores | Drf | same | PropsDrf (C68) |
| searches while blocs come and go | RegionSearch | same | PropsRegionSearch (C69) |
| region tables with delayed stores | RegionTso | same | PropsRegionTso (C70) |
| choice of the chain of a thread | DefaultChain | DefaultInv, DefaultOps, DefaultStep | PropsDefaultChain (C71) |
| concurrent realloc | ConcRealloc | ConcReallocLemmas, ConcReallocStep | PropsConcRealloc, PropsConcReallocAtomic (C72) |
| refill by concurrent threads | ConcRefill | ConcRefillLemmas | PropsConcRefill, PropsConcRefillRace (C73) |
| range of chunks taken out of the lists | PoolRange | PoolRange | PropsPoolRange (C74) |
| choice of a free chunk | Pool, Chain | SplitMerge, HeapAlloc, HeapFree | PropsPolicy (C75) |
| realloc in place | Chain, Posix, ConcPosix, ConcEnds | ChainRealloc, PosixInv, PropsSlack, ConcReach, ConcEndsReach | PropsReallocPolicy, PropsReallocProc, PropsSizeConc, PropsUsable (C76) |
| chunks and history | Chain | PropsReallocPolicy (used chunks along a run) | PropsNoTrace (C77) |
| blocs and blocks of the process | Posix | PosixInv, PosixOps | PropsFootprint (C78) |
| dump of a segment | Dump | HistoryLemmas, Merge | PropsDump (C79) |
| page map file of the NUMA statistics | Pagemap | - | PropsPagemap (C80) |
| what the process keeps | LightSource, Posix, ConcPosix, ConcEnds | PosixInv, ConcReach, ConcEndsReach | PropsCache, PropsCacheEnds (C81) |
| bytes of the process | LightSource, Posix, ConcPosix, ConcEnds | PosixInv, ConcReach, ConcEndsReach | PropsBytes (C82) |
| bytes of the blocks | LightSource, Posix, ConcPosix, ConcEnds | PosixInv, PosixOps, ConcReach, ConcEndsReach | PropsSlack, PropsSlackConc, PropsSlackEnds (C83) |
| region headers | RegionDel | same | PropsRegionDel (C66) |
| hooks | Hooks | HooksLemmas, HooksReach, HooksTrace, HooksBlocs, HooksSource, HooksLight, HooksTotal | PropsHooks, PropsHooksSource (C67) |
| NUMA | NumaStat, NumaMigrate | same | NumaStat (C54), NumaMigrate (C55) |
| other | Pmem | Pmem | Pmem (C35) |

The property files hold the theorems named `Cnn_...`, the small specifications they use, and an `example` per theorem
which shows that a concrete case meets its hypotheses. Names: `_partial` when the theorem covers part of the
property, `_refuted...` when it proves that the property is false of the code as written.

## 3. Per property

`MANIFEST.json` gives the status, the theorems and what is missing. Proof methods:

| id | method |
|----|--------|
| C01, C02, C04, C06, C08 | invariant `HInv` by induction over `Reach`; C02 also two runs that differ in client data |
| C03, C05, C09, C10, C13-C15, C39, C40 | postcondition of the call on the abstract heap |
| C07 | tiling + no two adjacent free chunks |
| C11, C12 | direct, any state / reachable state |
| C16 | arithmetic over all sizes; binary search by loop invariant; non-termination by a cycle of states |
| C17, C18 | byte-level round trips |
| C19, C20 | invariant of the region table over `RegHist` |
| C21-C23, C41, C42 | invariant of the light source over `LHist`, kernel as oracle |
| C24, C30, C31, C43-C45 | product invariant of all chains, the source, the regions and the queues over `PReach`; C43 also over `MReach` and `ConcEnds.Reach` |
| C25-C28, C34, C52, C53 | invariant over interleavings of atomic steps |
| C29 | simulation: interleaved run against the run of the same calls in lock order |
| C33 | chain of an ended thread behaves as the unmarked one (simulation) until its last bloc goes |
| C35 | induction over requests |
| C36 | instance of the chain invariant |
| C37 | termination of initialisation; concrete failing search |
| C38 | exact walk of the free lists |
| C46 | the invariant of C30 with the egg chain as environment: it owns the buffer, the structures of the threads are live blocks of it; packing bound for `C46_refuted` |
| C47 | the region invariant of C19 is kept by the removal of a chain |
| C48 | decimal representations are read back by `atol`; instance of C06 |
| C49, C50 | invariant `MInv` over `MReach`: the invariant of C30 with the blocks in calls and queues, and for each chain a run of Queue.lean that the accesses of the threads to its queue follow |
| C51 | measures: nodes left to walk, then blocks of the thread in the hands of its queue, then the position in the call |
| C54, C55 | induction over the pages and over the entries of the region tables; sets of pages as specification |
| C56 | each chunk in use is owned by a client or by a running call (ghost map); invariant of the sequential chain for the memory with the counter and the lock word left open; induction over the steps |
| C57 | the process with marked chains simulates the one without marks (`PS.marks`): calls that do not touch the chains of ended threads commute with the marks, resizes and frees of their blocks are those of the owner; induction over the steps |
| C58 | invariant `ConcEnds.Inv` over `ConcEnds.Reach`: a state is that of C49 with tags on the chains (running, flag set, handler set, released); each step commutes with the tags or fails in one of the listed ways; the tags only go forward; a thread past its flag is at its last purge or done |
| C59 | invariant over `NHist`: all pages of the blocs handed out or cached are bound to the node; without its NUMA part the source has a history of C21, whose invariant tells that new pages are not in use and that blocs are whole pages |
| C60 | the selection is a composition of total functions of the answers of hwloc; equations for all answers; the migration by C55; the sources that are set by C53 |
| C61 | induction on the list of the nodes |
| C62 | conversion to float as rounding to 24 significant bits, error bound by arithmetic on powers of 2; the rest case by case on the answers of the system, blocks by C35 |
| C63 | evaluation of the first call on a pool with one free chunk, for all addresses, sizes and memories |
| C64 | simulation: the delayed stores count as not executed; the queue of C25-C27 does the same steps later |
| C65 | invariant: only the holder of the lock, or the last holder, has delayed stores |
| C66 | invariant on header pointers; the loops computed in closed form by induction |
| C67 | the model with events is related function by function to the model without (erasure); the events by the invariant `HInv` of C01; the observer by induction on the history with events (`TReach`, and `STrace` over the light source with `SInv` and the queue `QAt`); the calls of the source by a source that logs them |
| C68 | invariant: the owner of an address is the only thread with delayed stores to it, and a delayed unlock or message is behind them; the atomicity by commuting the accesses of one thread with those of the others |
| C69 | invariant on the entries of blocs registered, being registered or being removed; for one search, the places where it can be while its bloc stays registered |
| C70 | invariant: who may have delayed stores into the word of a region and into an entry, at each place of each thread; what is behind an unlock or a message in a buffer |
| C71 | the invariant of C46 with client blocks among the blocks of the egg chain; each call of a thread is an operation of the egg chain or of C30, with the rest as environment |
| C72 | the invariant of C29 with the blocks that a realloc works with kept apart; a frame lemma for the steps of the other threads |
| C73 | the invariant of C29 with a list of buffers that grows; the eight steps of a refill that nobody interrupts are the sequential function. A schedule in which a free chunk is taken between a load and a store of the refill |
| C74 | induction over the run of chunks, with the removal of one chunk (C01) at each turn; divergence on the end mark by fixpoint induction |
| C75 | the effect of each call on the lists of the abstract heap (`GotRel.lists`, `FreeRel.lists`), transferred to memory by uniqueness of the walk |
| C76 | case analysis of `ReallocRel`; used chunks are kept by every call on another block, by induction on the run; for interleaved calls and threads that end, by every event |
| C77 | a list of chunks without two free neighbours that fills a buffer is determined by its used chunks (induction on the list); these are kept along a run |
| C78 | each bloc holds a block and blocs are disjoint (pigeonhole); a lost block is kept as a ghost block along every continuation, and the invariant says blocks are disjoint |
| C79 | induction on the chunks of the buffer; fixpoint induction for the endless loop |
| C80 | inductive invariants of the interleaved steps |
| C81 | each call asks the source at most once; a size that wrapped around would be seen by the invariant after the call |
| C82 | the invariant of a chain says that a bloc above 2 MB is covered by one used chunk; disjoint blocs are charged to distinct blocks |
| C83 | a call keeps the chunk of every block that it does not allocate, free or resize; induction on the history; for interleaved calls and threads that end, induction on the steps |
| C84 | the loop over the regions ends after one turn, since only heaps of 2 MB can be initialised (C37); then one `munmap` |

## 4. Trusted base

* Lean 4.33.0 kernel. No axiom is added; no `sorry`, `native_decide`, `bv_decide`. Axioms of the theorems of the
  manifest are listed in section 6.
* The reading of the C text into the definitions: nothing checks it mechanically. Every definition cites the lines.
* Sizes and offsets of the structs on x86-64 (large header 16, padded header 8, free chunk 32, macro bloc 32, queue
  entry 16, chain 1680, light source 72 bytes), the alignment on 16 bytes of the static buffer of the egg chain, and the bit-field layout of gcc.
* Sequentially consistent memory in Spin, Queue, RoundRobin, Concurrent, ConcPosix, RegionInit, BaseInit and the race of C33. The code uses `lock`
  prefixed operations and volatile accesses on x86. The queue and the spinlock are also modelled with store buffers (C64, C65),
  which supports this assumption on x86 for the two; weaker orders are only used in the refuted theorems of C64 and C65.
* In Concurrent the code between lock and unlock is one step. In Posix, Destroy and Egg calls are taken one at a time,
  except for the race of `C33_refuted_race`. In ConcPosix calls interleave: each access to a remote free queue is a
  step; the work of a thread on its own chain, with what it asks from the source (under the lock of the source) and
  the registration in the regions, is one step; so are a search in the regions, and the copy or the clearing of a block
  that only the calling thread knows. Threads do not end in ConcPosix (they do in Destroy).
* The kernel (`mmap`, `munmap`) is an oracle: it gives page-aligned pages that are not in use, never below 2 MB, or
  fails. Accesses to unmapped memory are not trapped: memory is total, and the theorems say which bytes change.
  Reads outside of the chain's memory are excluded by C02 (results do not depend on other bytes), not by a trap.
* Hypotheses on sizes and addresses are part of each statement (`ValidOp`, `PValid`, `SizeOK`, `PSize`).

### Not modelled

The queries to hwloc (`sctk_alloc_topology.c`), the reading of the page map, debug output,
the start-up with hwloc (without it: Egg; in Posix the structures of thread chains are
given addresses), the hooks of the POSIX layer and of the start-up (those of the chains: Hooks.lean), the Windows variants, creation of persistent-memory files,
`sctk_alloc_to_recode.c`.

## 5. Findings in the code

Numbers are lines of `src/sctk_allocator.c` unless a file is named.

1. Free chunks above 2 MB go to a list that the search never visits: a request that would fit fails
   (`C09_refuted`), and the statistics miss them (`C38_refuted_big`).
2. Two commas are missing in `SCTK_ALLOC_MMS_FREE_SIZES`: the default source serves nothing and its initialisation may
   not end (`C37_refuted`, `C37_refuted_init`). The binary search does not end above the last class (`C16_refuted`).
3. Sizes near 2^64 wrap around: a tiny block is returned (`C01_refuted` ... `C05_refuted`), `calloc` does not check its
   product (`C31_refuted`), the persistent pool neither (`C35_refuted`).
4. From 2^63 on the signed comparison of the search makes a free chunk of 2 MB fit (`C06_refuted`).
5. `realloc` of an aligned block reports and copies with the size of the whole chunk (`C14_refuted`), which makes the
   areas given to memcpy overlap when the new chunk follows the old one (`C13_refuted`); it frees the old
   block on failure (`C15_refuted`), divides by `realloc_factor` which may be set to 0.
6. Requests of 1048529 to 1048560 bytes are allocated as normal but freed as huge: the bloc is never given back
   (`C24_refuted`).
7. A huge request forgets the end mark: for 2 MB - 48 bytes the block is shorter than requested (`C43_refuted`).
8. `posix_memalign` returns EINVAL only for 1, 2 and 4, accepts 0 and 24, never returns ENOMEM (`C32_*`).
9. The light source writes a header at `MAP_FAILED` when the kernel refuses pages (`C42_refuted`); its cleanup never
   releases its lock (`C41_lock_kept`). The default source keeps its lock when the kernel refuses.
10. Region table: addresses of the first 2 MB and the address 2 MB itself (`C19_refuted`, `C20_refuted`); addresses from
    2^48 on index out of the table.
11. A chain marked for destruction: handler never called if it is already empty, lock released in freed memory when
    the last block is not huge, counter updated without lock in the huge path (`C33_refuted*`).
12. `sctk_alloc_posix_source_round_robin` initialises its counter without protection (`C34_refuted`) and divides by the
    number of nodes (`C34_no_node`).
13. `sctk_alloc_chain_get_stat`: the minimum is always 0, the lock is taken twice, the count of queue entries does not
    return (`C38_*`).
14. `sctk_net_memory_allocation_hook` and the free hook have no return statement: the boundary of
    `sctk_alloc_chain_alloc` is indeterminate (parameter `hook` of the model).
15. `sctk_alloc_chain_user_refill` takes no lock on a thread-safe chain, and counts a bloc for a NULL buffer.
16. With hooks compiled in, the structure of a shared chain has 1688 bytes: blocks are 8-aligned only.
17. Freeing twice is not noticed when the first free merged the block into its left neighbour, nor for an aligned
    block. If the right neighbour was free too, the second free shrinks the merged chunk and leaves a chunk that is
    marked in use and has no owner (`C12_double_free_missed`, `C12_refuted`).
18. `sctk_alloc_posix_get_size` and `sctk_alloc_rfq_register` dereference NULL for pointers without magic.
19. The padded header is written after the unlock: harmless, see C29.
20. Without hwloc the egg chain has no memory source: `sctk_alloc_posix.c` 460 takes the source of index
    `SCTK_DEFAULT_NUMA_MM_SOURCE_ID` = 1, while `sctk_alloc_posix_mmsrc_uma_init` sets only index 0. Once its buffer of
    2 MB is used up (at most 1248 threads, ended ones included) the structure of the next thread is at NULL, which only
    an `assert` tests (`C46_refuted`).
21. `sctk_alloc_chain_destroy` (1153-1177) cleans only the region of the base address: blocs beyond a 1 TB boundary
    stay registered to the destroyed chain (`C47_refuted`).
22. `MPCALLOC_REALLOC_FACTOR` is not checked: 0, a text without digits or 2^32 make `realloc` divide by zero
    (`C48_refuted`, sctk_alloc_config.c 131-148, sctk_allocator.c 1722).
23. `sctk_alloc_region_init` (2476-2484) sets its flag before it wipes the table of regions and has no protection of its
    own: a bloc that another thread registers in between is forgotten (`C52_refuted`), and two initialisations at once
    break the lock (`C52_refuted_lock`). The POSIX layer is safe: its start-up does the first registration under a mutex.
24. `sctk_alloc_posix_base_init` publishes the start-up before the NUMA phase. With round robin a thread that arrives then
    takes a source that is still NULL (`C53_refuted`); the condition `(node == -1 || SCTK_DEFAULT_NUMA_MM_SOURCE_ID)`
    (sctk_alloc_posix.c 344) is always true, so that the protection of lines 331-333 has no effect.
25. `sctk_alloc_numa_stat.c`: the number of pages is taken from the size alone (the last page of a segment that does not
    begin on a page is missed), `int i << 12` overflows from 2 GB on, `numa_pages[-1]` is written when the node of a page
    is not known (always in a build without libnuma), the process is stopped on kernels since 4.2, whose page map has no
    page order, and without the page map the check never reports, every page is counted as mapped and the total is 0.
    `sctk_alloc_chain_get_numa_stat` counts a bloc once per entry of the region table (`C54_refuted_*`).
26. `sctk_alloc_chain_numa_migrate` (2836) tests `migrate_chain_struct` where `migrate_content` is meant;
    `sctk_alloc_migrate_numa_mem` reads `obj->nodeset` with `obj` NULL for -1; `sctk_alloc_mm_source_light_migrate` does
    not store the new node (`C55_refuted_*`).
27. `chain->cnt_macro_blocs` is updated without lock for huge blocks (`sctk_allocator.c` 1304 and 1568, reached from 1469 and
    1622): updates are lost when two threads allocate or free huge blocks of a shared chain (`C56_refuted_count`).
    Line 1572 destroys the chain of an ended thread when the counter becomes 0.
28. The end of a thread is not protected from the others (sctk_allocator.c 1128-1142, sctk_alloc_posix.c 716-735): a thread
    that has read the flag before it was set pushes its block to the queue after the last purge, and the block and the chain
    stay for ever (`C58_refuted_lost`); a huge last block that is freed between the handler and the purge releases the chain
    that is then purged (`C58_refuted_exit`); a last block that is freed between the flag and the handler leaves a chain that
    is never released (`C58_refuted_window`).
29. A strict source does not look at the answer of hwloc (sctk_alloc_light_mm_source.c 256-264): when the binding is refused
    it hands out unbound memory as if it were bound (`C59_refuted_refusal`). Its cleanup frees the node set but keeps the
    pointer (299-300), so that a later request above `keep_max`, which does not take the lock that the cleanup keeps, uses
    freed memory (`C59_refuted_cleanup`). The sources of the nodes used by malloc (sctk_alloc_posix.c 229) are set up without
    the strict flag, so that their node is of no effect (`C59_refuted_default`).
30. `if (status == 0) return -1;` (sctk_alloc_topology.c 205, 217, 265) gives up when hwloc succeeds, and leaks two bitmaps; line
    305 overwrites the result of 302. No thread ever gets the source of its node (`C60_refuted_bound`, `C60_refuted_never`), and
    `sctk_alloc_posix_numa_migrate` does nothing (`C60_refuted_migrate`).
31. sctk_alloc_posix.c 344 tests `SCTK_DEFAULT_NUMA_MM_SOURCE_ID` where `node == SCTK_DEFAULT_NUMA_MM_SOURCE_ID` is meant: always true
    (`C60_refuted_robin`). Line 963 compares the node of a source with the index 128, where "no node" is -1: NULL is
    dereferenced (`C60_refuted_unbind`).
32. After a change of the source of a chain the blocs that it has go back to the new source: its counter becomes negative, and
    neither source can be cleaned up (`C60_refuted_counter`).
33. `SCTK_ROUNDUP` (sctk_alloc_pmem.h 49) computes in `float`: 2^k + 1 bytes become 2^k for each k from 24 on, and a pool can be many pages
    smaller than asked for (`C62_refuted_round`); the largest 2^39 sizes are undefined (`C62_refuted_huge`).
34. `sctk_pmem_create` compares the result of `mmap` with NULL: after a failure it returns a pool at the address -1
    (`C62_refuted_map`). The other failures leak the descriptor and the file (`C62_refuted_leak`). `malloc` and `stat` are not checked.
35. `sctk_alloc_chain_user_refill` accepts buffers of any size above 80 bytes, but the cut of a chunk rounds the request to 16 and subtracts
    without a test (820 is compiled out by `SCTK_ALLOC_FAST_BUT_LESS_SAFE`): for a size that is no multiple of 16 the residue can get
    `2^64 - k` bytes, and its header is written beyond the buffer (`C63_refuted_size`; on a machine the store of the previous size
    at the "next" chunk, 2^56 bytes further, traps). Buffers that start 9 to 15 bytes above a multiple of 16 give aligned blocks that reach
    into the header of the next chunk (`C63_refuted_base`).
36. The queue needs the swap of the tail to come after the store of `NULL` into the head (mpscf_queue.h 222-226; the barrier of 223 is commented
    out), and after the store of `NULL` into the new entry (157-160). A swap that waits for earlier stores (x86) gives both (C64). Where
    `OPA_swap_ptr` does not (an acquire-only exchange, as `__sync_lock_test_and_set` may be on other processors), all later remote frees
    are lost (`C64_refuted_lost`) or the owner spins for ever (`C64_refuted_stuck`). In the same way the unlock of the spinlock is
    a plain store: C65 holds where stores arrive in order, and is false otherwise (`C65_refuted_order`).
37. The clean-up of a default source deletes whole regions of 1 TB (sctk_allocator.c 2126-2136, a `@todo` there): blocs of other chains in the
    same region are forgotten, so that their `free` no longer finds them (`C66_refuted_shared`). The loop starts at the heap and adds 1 TB
    each time: the end of a heap that crosses the limit of a region stays registered after `munmap` (`C66_refuted_straddle`), and
    destroying another chain of that region later reads the unmapped bloc (`C66_refuted_stale`).
38. With `ENABLE_ALLOC_HOOKS` and a hook for `chain_flush_rfq`, the purge calls `sctk_alloc_rfq_count_entries` (2589), whose loop tests `entries`
    and moves `cur`: every purge of a queue that is not empty faults or never ends (`C67_refuted_flush`). With a hook for
    `chain_huge_alloc`, its argument `sctk_alloc_get_size(res)` reads the header of `NULL` when the source has no memory
    (`C67_refuted_huge`). `chain_add_macro_bloc` is sent for a refused request, with a `NULL` bloc (`C67_refuted_null_bloc`).
39. The request that `chain_alloc` reports is the size plus the boundary when the boundary is above 1 (`C67_refuted_request`); a huge allocation
    reports the size less 1 when the boundary is 1. A block is huge by its request when it is allocated and by its chunk when it is freed: it may be
    reported by `chain_alloc` and released by `chain_huge_free`. A refill by the user sends no event, nor does a `realloc` in place.
40. `chain_remote_free` is called with the owner and the local chain in the wrong order (sctk_alloc_posix.c 735); the header declares
    `sctk_alloc_hoks_get_macro_bloc_size` (a typing error, sctk_alloc_hooks.h) and `hook_user_data` is never initialised.
41. `sctk_alloc_region_get_macro_bloc` reads `entry->macro_bloc` three times (2402, 2411) without a lock. A bloc that is not aligned on 2 MB
    shares its last entry with the bloc that begins there. If another thread removes that bloc after the test for `NULL` and before the test
    `> ptr`, the search for a live address returns `NULL` (`free` then leaves the block, `realloc` aborts), or the next bloc registered there (`free` then
    goes to a wrong chain): `C69_refuted_race`. Compilers that make one load of the three reads hide it (`C69_found_partial`). The second entry is
    read up to five times; for an address in no bloc the header of `NULL`, or of a bloc whose memory was given back, may be read
    (`C69_refuted_fault`). The models of C49 and C56 take the search as one step, which is the case of one load.
42. A thread on the egg chain (switched there with `sctk_alloc_posix_plug_on_egg_allocator`, or after its end) gets NULL for every request
    of 2 MB or more, and `sctk_calloc` (561-568) then clears memory at NULL (`C71_egg_refuted`). A thread that is switched to NULL forgets its
    chain: the next call makes another one, and 1249 times exhaust the buffer of the egg chain (`C71_null_refuted`).
43. `sctk_alloc_chain_realloc` (1734-1743) takes the lock of the chain twice. Between the allocation and the free it has both blocks, and another
    thread may get NULL for a request that would be served before the realloc and after it (`C72_refuted_atomic`): the calls of the clients
    are not linearizable, only the calls that take the lock are (`C72_linearizable_partial`).
44. `sctk_alloc_chain_user_refill` (sctk_allocator.c 1046-1078) takes no lock, even on a chain flagged thread safe, and works
    on the same free lists as `sctk_alloc_chain_alloc` and `sctk_alloc_chain_free`. Between the load of `flist->next`
    and the store in `flist->next->prev` (line 520) another thread may take the first chunk of the list: the refill then
    writes 8 bytes in the block of that thread (`RF.C73_refuted`). The client has to keep other threads out of the chain.
45. The comment of `sctk_alloc_free_chunk_range` (sctk_allocator.c 871-877) says that it frees the elements. It does the
    opposite: the free chunks leave the lists and are marked used (`C74_range_taken`). With a `last` outside of the buffer
    of `first` it never returns (`C74_two_buffers`). Only the tests call it.
46. The comment at sctk_allocator.c 720 ("oldest one -> FIFO") holds only between freed chunks: the remainder of a cut is
    put at the head of its list, so a younger chunk is taken before an older one of the same size (`C75_fifo_refuted`).
    A chunk whose size is not a class size (48, 80, ... bytes) is kept one class below the class where a request of this
    size starts, so it is not reused for the same request while any larger chunk is free (`C75_best_fit_refuted`).
47. `realloc` to the size that a block already has can move the block, and if there is no memory, free it and return NULL:
    a block of fewer than 24 bytes (16 excepted) may have a chunk of which it uses less than half, and the test at
    sctk_allocator.c 1720-1722 takes that for a reduction by more than half (`C76_same_size_refuted`, for each such size).
    `realloc` does not look at the chunk behind the block: growing the only block of a buffer fails, and frees it, although
    the rest of the buffer is free (`C76_grow_refuted`).
48. A chain with merging disabled loses memory for ever: one block of 100 bytes that is allocated and freed in a buffer of
    4096 bytes leaves it unable to give 4000 bytes (`C77_unmerged_refuted`). With merging nothing is lost (`C77_no_trace`).
49. A block of 1048545 to 1048560 bytes that is freed by its thread is lost for the rest of the process, not only until a
    later call: no sequence of calls gives out one of its bytes again or returns its bloc (`C78_lost_forever`; the cause
    is that of finding 6). A loop of malloc and free of that size loses 1 MB per round.
50. The dump of a segment goes to the next chunk before it prints: the first chunk is never shown. With the addresses of
    the buffer of a chain it shows nothing, and with the end of the buffer it never ends (`C79_*_refuted`).
51. The reader of the page map tests the file before it takes the lock, and not again under it. If the process ends
    between, the handler has closed the file and the reader calls `fseek` with NULL (`C80_exit_refuted`); a thread that
    initialises later opens the file again (`C80_once_refuted`).
52. `keep_mem` is described as the most memory kept in a source (sctk_alloc_config.h 53). The source compares what it
    has before it adds a bloc (sctk_alloc_light_mm_source.c 60), so that it keeps up to `keep_mem + keep_max`; with
    `MPCALLOC_KEEP_MEM=0` it still keeps a bloc (`C81_limit_refuted`).
53. With the default parameters `realloc(p, n)` of a block that has `n` bytes moves it, though nothing changes, if
    2097105 <= n <= 2097119: the block is alone in a bloc of 4 MB of which more than half is unused, so that
    sctk_allocator.c 1720-1722 takes it for a reduction; the new bloc is as large as the old one (`C76_again_refuted`).
    Below 8 bytes every `realloc` moves the block (`C76_tiny_partial`).
54. Negative sizes in the environment are accepted: `MPCALLOC_KEEP_MEM=-1` becomes 2^64 - 2^20 bytes, and a text without a
    number becomes 0 instead of the default (`C48_refuted_negative`, `C48_no_number`, sctk_alloc_config.c 131-148).
55. The clean-up of a default source unmaps `heap_size` bytes and one page more (sctk_allocator.c 2137-2138), though the end mark
    is in the last page of the heap (1836-1884): the page behind the heap is lost, whoever mapped it (`C84_refuted`).

## 6. Axioms of the theorems of the manifest

Written by `tools/axioms.py`.

<!-- axioms -->
* **Classical.choice, Quot.sound, propext**: `BaseInit.C53_default_partial`, `BaseInit.C53_robin_partial`, `BaseInit.C53_set_partial`, `C01_live_blocks_disjoint_partial`, `C01_refuted`, `C02_inside_buffers_partial`, `C02_noninterference_partial`, `C02_refuted`, `C03_large_enough_partial`, `C03_refuted`, `C04_live_data_kept_partial`, `C04_refuted`, `C05_alignment_partial`, `C05_refuted`, `C06_refuted`, `C06_valid_calls_succeed_partial`, `C07_can_destroy`, `C07_capacity`, `C07_one_free_chunk`, `C08_coalesced`, `C09_alloc_succeeds_partial`, `C09_refuted`, `C10_failing_alloc_no_effect`, `C11_free_foreign`, `C11_free_null`, `C12_double_free_missed`, `C12_double_free_partial`, `C12_refuted`, `C13_any_block_partial`, `C13_realloc_keeps_data_partial`, `C13_refuted`, `C14_realloc_size_partial`, `C14_refuted`, `C15_other_blocks_kept_partial`, `C15_refuted`, `C16_lookup_exact_partial`, `C16_refuted`, `C17_field_updates`, `C17_header_round_trip`, `C18_pointer_leads_back`, `C19_lookup_partial`, `C19_refuted`, `C20_refuted`, `C20_registration_partial`, `C21_no_double_hand_out`, `C22_exact_accounting`, `C23_cache_bounded`, `C24_blocs_returned_partial`, `C24_refuted`, `C29_blocks_partial`, `C29_linearizable_partial`, `C29_no_failure_partial`, `C29_one_at_a_time`, `C29_progress`, `C29_real_time`, `C30_blocks_disjoint_partial`, `C30_calls_any_partial`, `C30_calls_partial`, `C30_pending_partial`, `C31_refuted`, `C31_wraps`, `C31_zeroed_partial`, `C32_einval`, `C32_memalign_partial`, `C32_no_enomem`, `C32_refuted`, `C32_refuted_zero`, `C33_calls_partial`, `C33_exit_partial`, `C33_last_huge_partial`, `C33_once_partial`, `C33_refuted`, `C33_refuted_empty`, `C33_refuted_locked`, `C33_serial_partial`, `C33_when_blocks_partial`, `C33_when_partial`, `C36_shared_partial`, `C37_init_partial`, `C37_refuted`, `C37_refuted_init`, `C38_count_entries`, `C38_refuted_big`, `C38_refuted_min`, `C38_refuted_thread_safe`, `C38_stat_partial`, `C39_usable_size`, `C40_freed_block_reusable`, `C41_cleanup`, `C41_cleanup_aborts`, `C41_lock_kept`, `C42_refuted`, `C42_served_partial`, `C43_ends_partial`, `C43_interleaved_partial`, `C43_refuted`, `C43_usable_size_partial`, `C43_whole_partial`, `C44_small_overhead`, `C45_realloc_partial`, `C46_calls_partial`, `C46_first_threads_partial`, `C46_refuted`, `C46_spawn_keeps`, `C46_structures_partial`, `C47_destroy_partial`, `C47_refuted`, `C48_flags_refused`, `C48_number`, `C48_refuted`, `C48_refuted_negative`, `C48_usable_partial`, `C48_values_partial`, `C49_blocks_disjoint_partial`, `C49_blocs_returned_partial`, `C49_record`, `C49_spawn_partial`, `C49_steps_any_partial`, `C49_steps_partial`, `C50_entered_partial`, `C50_free_step_partial`, `C50_nothing_lost_partial`, `C50_owner_frees_partial`, `C50_push_partial`, `C51_call_ends_partial`, `C51_no_deadlock_partial`, `C51_push_ends`, `C63_aligned_partial`, `C63_inside_partial`, `C63_null`, `C63_refuted_base`, `C63_refuted_size`, `C70_answer`, `C70_exclusive`, `C70_found`, `C70_no_abort`, `C70_no_lock`, `C70_one_table`, `C70_removed`, `C70_same_table`, `C71_calls_partial`, `C71_capture`, `C71_disjoint`, `C71_egg_refuted`, `C71_kept`, `C71_null_refuted`, `C71_owner`, `C71_returns`, `C74_range_taken`, `C74_two_buffers`, `C75_best_fit_refuted`, `C75_fifo_refuted`, `C75_given`, `C75_taken`, `C76_again_partial`, `C76_again_refuted`, `C76_chunk_constant_partial`, `C76_grow_refuted`, `C76_inplace`, `C76_interleaved_again_partial`, `C76_interleaved_event_partial`, `C76_interleaved_inplace`, `C76_interleaved_partial`, `C76_interleaved_rule_partial`, `C76_interleaved_who_partial`, `C76_process_partial`, `C76_rule`, `C76_same_size_partial`, `C76_same_size_refuted`, `C76_slack`, `C76_tiny_partial`, `C76_usable_constant`, `C76_usable_ends_partial`, `C76_usable_interleaved_partial`, `C76_usable_process_partial`, `C77_canonical`, `C77_no_trace`, `C77_same_service`, `C77_success`, `C77_unmerged_refuted`, `C78_blocs_bounded_partial`, `C78_lost_forever`, `C78_refuted`, `C79_dump_partial`, `C79_empty_refuted`, `C79_endless_refuted`, `C79_first_refuted`, `C81_blocs_partial`, `C81_cache`, `C81_cache_interleaved`, `C81_limit_refuted`, `C82_bytes_ends_partial`, `C82_bytes_interleaved_partial`, `C82_bytes_partial`, `C82_chunk_partial`, `C82_filled_interleaved_partial`, `C82_filled_partial`, `C82_overhead_partial`, `C82_refuted`, `C83_bound_partial`, `C83_bytes_partial`, `C83_interleaved_bound_partial`, `C83_interleaved_bytes_partial`, `C83_interleaved_partial`, `C83_slack_partial`, `C84_cleanup_partial`, `C84_refuted`, `CR.C72_blocks_partial`, `CR.C72_linearizable_partial`, `CR.C72_no_failure_partial`, `CR.C72_null_zero`, `CR.C72_progress`, `CR.C72_refuted_atomic`, `CR.C72_released_partial`, `CR.C72_result_partial`, `ConcEnds.C58_blocks_partial`, `ConcEnds.C58_drained_partial`, `ConcEnds.C58_final_partial`, `ConcEnds.C58_last_huge_partial`, `ConcEnds.C58_marks_partial`, `ConcEnds.C58_once_partial`, `ConcEnds.C58_push_partial`, `ConcEnds.C58_refuted`, `ConcEnds.C58_refuted_empty`, `ConcEnds.C58_refuted_exit`, `ConcEnds.C58_refuted_late`, `ConcEnds.C58_refuted_locked`, `ConcEnds.C58_refuted_lost`, `ConcEnds.C58_refuted_window`, `ConcEnds.C58_returned_partial`, `ConcEnds.C58_steps_partial`, `ConcEnds.C58_when_blocks_partial`, `ConcEnds.C58_when_partial`, `ConcEnds.C76_ends_again_partial`, `ConcEnds.C76_ends_event_partial`, `ConcEnds.C76_ends_partial`, `ConcEnds.C76_ends_rule_partial`, `ConcEnds.C81_blocs_ends_partial`, `ConcEnds.C81_cache_ends`, `ConcEnds.C83_ends_bound_partial`, `ConcEnds.C83_ends_bytes_partial`, `ConcEnds.C83_ends_partial`, `Drf.C68_atomic`, `Drf.C68_exclusive`, `Drf.C68_hand_over`, `Drf.C68_no_delay`, `Drf.C68_quiet`, `Drf.C68_reads_last`, `Drf.C68_section`, `Ends.C57_blocks_partial`, `Ends.C57_calls_partial`, `Ends.C57_exit_partial`, `Ends.C57_last_huge_partial`, `Ends.C57_once_partial`, `Ends.C57_refuted`, `Ends.C57_refuted_empty`, `Ends.C57_refuted_locked`, `Ends.C57_resize_partial`, `Ends.C57_returned_partial`, `Ends.C57_running_partial`, `Ends.C57_when_blocks_partial`, `Ends.C57_when_partial`, `Hooks.C67_alloc_event`, `Hooks.C67_alloc_partial`, `Hooks.C67_blocs`, `Hooks.C67_free_event`, `Hooks.C67_free_partial`, `Hooks.C67_no_failure_partial`, `Hooks.C67_no_failure_source_partial`, `Hooks.C67_purge_events_partial`, `Hooks.C67_realloc_partial`, `Hooks.C67_refuted_flush`, `Hooks.C67_refuted_huge`, `Hooks.C67_refuted_null_bloc`, `Hooks.C67_refuted_request`, `Hooks.C67_replay_partial`, `Hooks.C67_replay_source_partial`, `Hooks.C67_same`, `Hooks.C67_same_purge`, `NodeSelect.C60_default`, `NodeSelect.C60_first`, `NodeSelect.C60_migrate_partial`, `NodeSelect.C60_refuted_bound`, `NodeSelect.C60_refuted_counter`, `NodeSelect.C60_refuted_migrate`, `NodeSelect.C60_refuted_never`, `NodeSelect.C60_refuted_robin`, `NodeSelect.C60_refuted_unbind`, `NodeSelect.C60_source_partial`, `NodeSelect.C61_hbw`, `NumaMigrate.C55_chain_partial`, `NumaMigrate.C55_refuted_content`, `NumaMigrate.C55_refuted_reset`, `NumaMigrate.C55_refuted_source`, `NumaMigrate.C55_refuted_struct`, `NumaMigrate.C55_segment_partial`, `NumaMigrate.C55_source_partial`, `NumaSource.C59_bound_partial`, `NumaSource.C59_others`, `NumaSource.C59_refuted_cleanup`, `NumaSource.C59_refuted_default`, `NumaSource.C59_refuted_migrate`, `NumaSource.C59_refuted_refusal`, `NumaSource.C59_same`, `NumaStat.C54_chain_partial`, `NumaStat.C54_check_partial`, `NumaStat.C54_nomap_partial`, `NumaStat.C54_pages_partial`, `NumaStat.C54_refuted_2GB`, `NumaStat.C54_refuted_chain`, `NumaStat.C54_refuted_check`, `NumaStat.C54_refuted_unaligned`, `NumaStat.C54_unknown_partial`, `OnNode.C56_blocks_partial`, `OnNode.C56_count_partial`, `OnNode.C56_free_ends_partial`, `OnNode.C56_lookup_partial`, `OnNode.C56_no_failure_partial`, `OnNode.C56_node`, `OnNode.C56_nothing_lost_partial`, `OnNode.C56_one_at_a_time`, `OnNode.C56_progress_partial`, `OnNode.C56_refuted_count`, `Pmem.C35_pool_partial`, `PmemFile.C62_blocks_partial`, `PmemFile.C62_create`, `PmemFile.C62_destroy`, `PmemFile.C62_free`, `PmemFile.C62_null_partial`, `PmemFile.C62_refuted_huge`, `PmemFile.C62_refuted_leak`, `PmemFile.C62_refuted_map`, `PmemFile.C62_round_partial`, `PmemFile.C62_size`, `PmemFile.C62_success`, `Queue.C25_exactly_once`, `Queue.C25_nothing_lost`, `Queue.C26_fifo`, `Queue.C27_drain_ends`, `QueueTso.C64_drain_ends`, `QueueTso.C64_exactly_once`, `QueueTso.C64_fifo`, `QueueTso.C64_nothing_lost`, `QueueTso.C64_refines`, `RF.C73_blocks_partial`, `RF.C73_linearizable_partial`, `RF.C73_no_failure_partial`, `RF.C73_refuted`, `RegionDel.C66_cleanup_model`, `RegionDel.C66_cleanup_partial`, `RegionDel.C66_clear`, `RegionDel.C66_del`, `RegionDel.C66_del_all`, `RegionDel.C66_del_chain`, `RegionDel.C66_del_refused`, `RegionDel.C66_headers`, `RegionDel.C66_put`, `RegionDel.C66_put_succeeds`, `RegionDel.C66_refuted_shared`, `RegionDel.C66_refuted_stale`, `RegionDel.C66_refuted_straddle`, `RegionDel.C66_refuted_twice`, `RegionInit.C52_lookup_partial`, `RegionInit.C52_registered_partial`, `RegionSearch.C69_foreign_partial`, `RegionSearch.C69_found_aligned_partial`, `RegionSearch.C69_found_own_partial`, `RegionSearch.C69_found_partial`, `RegionSearch.C69_no_abort`, `RegionSearch.C69_refuted_fault`, `RegionSearch.C69_registered`, `RegionSearch.C69_removed`, `SpinTso.C65_acquires`, `SpinTso.C65_hand_over`, `SpinTso.C65_mutual_exclusion`, `SpinTso.C65_reads_last`, `SpinTso.C65_released`
* **Quot.sound**: `C71_restore`
* **Quot.sound, propext**: `BaseInit.C53_refuted`, `BaseInit.C53_refuted_nodes`, `C17_fields_independent`, `C30_remote_free`, `C48_no_number`, `C49_start`, `C70_refuted_order`, `C70_refuted_removal`, `C71_no_new`, `Drf.C68_refuted_order`, `NumaStat.C54_refuted_no_node`, `NumaStat.C54_refuted_order`, `NumaStat.C54_refuted_unavailable`, `Pagemap.C80_exit_refuted`, `Pagemap.C80_once_refuted`, `Pagemap.C80_one_inside`, `Pagemap.C80_open_partial`, `Pagemap.C80_range`, `PmemFile.C62_refuted_reuse`, `PmemFile.C62_refuted_round`, `QueueTso.C64_refuted_lost`, `QueueTso.C64_refuted_stuck`, `RegionInit.C52_refuted`, `RegionInit.C52_refuted_lock`, `RegionSearch.C69_ends`, `RegionSearch.C69_refuted_race`, `RoundRobin.C34_round_robin_partial`
* **none**: `C33_refuted_race`, `Pmem.C35_refuted`, `RoundRobin.C34_no_node`, `RoundRobin.C34_refuted`, `RoundRobin.C34_two_in_critical_section`
* **propext**: `C70_refuted_tables`, `C71_new`, `C71_taken_back`, `Hooks.C67_life`, `Spin.C28_acquires`, `Spin.C28_mutual_exclusion`, `Spin.C28_swap_result`, `SpinTso.C65_refuted_order`
