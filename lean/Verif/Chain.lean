import Verif.Pool
import Verif.Region

/-
Allocation chains (/repo/src/sctk_allocator.c 973-1825). Definitions only.

The calls are modelled as run by one thread at a time; the spinlock is kept as a flag (taking it twice
never ends). Interleavings are treated in Spin.lean and Queue.lean.
-/

namespace MpcAlloc

/-- `struct sctk_alloc_config`, sctk_alloc_config.h (the fields used by the modelled code). -/
structure Config where
  reallocFactor : Nat
  reallocThreshold : Nat
  keepMax : Nat
  keepMem : Nat
  strict : Bool

/-- Default configuration, sctk_alloc_config.c. -/
def Config.default : Config := ⟨2, 50 * 1024 * 1024, 8 * 1024 * 1024, 512 * 1024 * 1024, false⟩

/-- `struct sctk_alloc_mm_source` (sctk_alloc_mm_source.h): the two functions called by a chain. `σ` is
the state of the source and of the operating system. -/
structure Source (σ : Type) where
  request : Mem → σ → Nat → Outcome (Mem × σ × Nat)
  free : Mem → σ → Nat → Outcome (Mem × σ)

/-- What is shared by all chains: memory, regions and state of the source. -/
structure World (σ : Type) where
  mem : Mem
  regs : Regions
  src : σ

/-- `struct sctk_alloc_chain`, sctk_alloc_chain.h 78-111. Simplification: apart from the list heads these
fields are kept outside of the byte memory. `addr` is the address of the structure, `pool.base` the
address of `pool.free_lists`, `handler` tells that `destroy_handler` is set, `dead` that the handler
was called (the only handler of the code base releases the structure, sctk_alloc_posix.c 979-986), and
`calls` counts the calls of the handler (it is not a field of the structure). -/
structure Chain where
  addr : Nat
  pool : Pool
  status : Nat → Bool
  threadSafe : Bool
  noMerge : Bool
  noRegion : Bool
  hasSrc : Bool
  base : Nat
  end_ : Nat
  cnt : Int
  handler : Bool
  lock : Bool
  dead : Bool
  calls : Nat
  rfqHead : Nat
  rfqTail : Nat

/-- State seen by a call on one chain. -/
structure CS (σ : Type) where
  w : World σ
  c : Chain

variable {σ : Type}

/-- View of the pool functions. -/
def CS.heap (s : CS σ) : Heap := ⟨s.w.mem, s.c.status⟩
/-- Write back of the pool view. -/
def CS.setHeap (s : CS σ) (h : Heap) : CS σ :=
  { w := { s.w with mem := h.mem }, c := { s.c with status := h.status } }
/-- Replace the memory. -/
def CS.setMem (s : CS σ) (m : Mem) : CS σ := { s with w := { s.w with mem := m } }

/-- `sctk_alloc_spinlock_lock` under `if (chain->flags & THREAD_SAFE)`; a single thread that takes the lock
twice waits for ever (sctk_alloc_internal_spinlock.h 54-61). -/
def lockIf (s : CS σ) : Outcome (CS σ) :=
  if s.c.dead then .ub
  else if s.c.threadSafe then
    if s.c.lock then .diverge else .ok { s with c := { s.c with lock := true } }
  else .ok s

/-- `sctk_alloc_spinlock_unlock` under the same test. Touching a released chain is undefined. -/
def unlockIf (s : CS σ) : Outcome (CS σ) :=
  if s.c.dead then .ub
  else if s.c.threadSafe then .ok { s with c := { s.c with lock := false } }
  else .ok s

/-- `sctk_alloc_chain_base_init`, sctk_allocator.c 978-1003. `pb` is the address of the list heads inside
of the structure at `addr`. -/
def chainBaseInit (w : World σ) (addr pb : Nat) (threadSafe noMerge noRegion : Bool) : Outcome (CS σ) := do
  let (h, P) ← threadPoolInit w.mem pb freeSizes true
  return { w := { w with mem := h.mem },
           c := { addr := addr, pool := P, status := h.status, threadSafe := threadSafe, noMerge := noMerge,
                  noRegion := noRegion, hasSrc := false, base := 0, end_ := 0, cnt := 0, handler := false,
                  lock := false, dead := false, calls := 0, rfqHead := 0, rfqTail := 0 } }

/-- `sctk_alloc_chain_default_init`, sctk_allocator.c 1183-1191: a chain fed by a source. -/
def chainDefaultInit (w : World σ) (addr pb : Nat) (threadSafe noMerge noRegion : Bool) : Outcome (CS σ) := do
  let s ← chainBaseInit w addr pb threadSafe noMerge noRegion
  return { s with c := { s.c with hasSrc := true } }

/-- `sctk_alloc_chain_prepare_and_reg_macro_bloc`, sctk_allocator.c 1222-1249: the chunk covering the bloc
(its info byte), 0 for a NULL bloc. -/
def prepareBloc (s : CS σ) (bloc : Nat) : Outcome (CS σ × Nat) :=
  if bloc = 0 then .ok (s, 0) else do
  let size := hSize s.w.mem bloc
  let (m, v) := setupChunk s.w.mem (add64 bloc 32) (sub64 (sub64 size 32) 16) 0
  let m := createStopper m (sub64 (add64 bloc size) 16) (add64 bloc 32)
  if s.c.noRegion then return (s.setMem m, v)
  else do
    let (m, R) ← regionSetEntry m s.w.regs s.c.addr bloc
    return ({ s with w := { s.w with mem := m, regs := R } }, v)

/-- `sctk_alloc_chain_user_refill`, sctk_allocator.c 1046-1077. -/
def userRefill (s : CS σ) (buffer size : Nat) : Outcome (CS σ) := do
  if buffer = 0 ∧ size ≠ 0 then .abort else
  if size ≠ 0 ∧ size ≤ 80 then .abort else
  let s ← (if buffer ≠ 0 ∧ size > 0 then do
      let s := s.setMem (setupMacroBloc s.w.mem buffer size)
      let (s, v) ← prepareBloc s buffer
      let h ← freeListInsert s.c.pool s.heap (vLarge v) false
      pure (s.setHeap h)
    else pure s)
  let c := if s.c.base = 0 then { s.c with base := buffer, end_ := add64 buffer size } else s.c
  return { s with c := { c with cnt := c.cnt + 1 } }

/-- `sctk_alloc_chain_user_init`, sctk_allocator.c 1085-1094. -/
def userInit (w : World σ) (addr pb : Nat) (buffer size : Nat) (threadSafe noMerge noRegion : Bool) :
    Outcome (CS σ) := do
  let s ← chainBaseInit w addr pb threadSafe noMerge noRegion
  let s ← (if buffer ≠ 0 then userRefill s buffer size else pure s)
  return { s with c := { s.c with hasSrc := false } }

/-- `sctk_alloc_chain_standalone_init`, sctk_allocator.c 1011-1014 (`SCTK_ALLOC_CHAIN_STANDALONE`: thread safe,
no region). -/
def standaloneInit (w : World σ) (addr pb : Nat) (buffer size : Nat) : Outcome (CS σ) :=
  userInit w addr pb buffer size true false true

/-- `sctk_alloc_chain_shared_init`, sctk_allocator.c 1023-1037: the structure (of `csz` bytes, with its
list heads at offset `poff`) is placed at the start of the segment. -/
def sharedInit (w : World σ) (csz poff : Nat) (buffer size : Nat) : Outcome (CS σ) :=
  if buffer = 0 then .abort
  else if size ≤ csz then .abort
  else standaloneInit w buffer (buffer + poff) (add64 buffer csz) (sub64 size csz)

/-- Rounding of `sctk_alloc_chain_request_mem`, sctk_allocator.c 1273-1289 (64-bit). -/
def requestSize (size : Nat) : Nat :=
  let size := add64 size 48
  if size % MB2 ≠ 0 then add64 size (MB2 - size % MB2) else size

/-- `sctk_alloc_chain_request_mem`, sctk_allocator.c 1260-1308 (hooks off). -/
def requestMem (S : Source σ) (s : CS σ) (size : Nat) : Outcome (CS σ × Nat) :=
  if !s.c.hasSrc then .ok (s, 0) else do
  let (m, src, bloc) ← S.request s.w.mem s.w.src (requestSize size)
  let (s, v) ← prepareBloc { s with w := { s.w with mem := m, src := src } } bloc
  if v = 0 then return (s, 0)
  else return ({ s with c := { s.c with cnt := s.c.cnt + 1 } }, v)

/-- `sctk_alloc_chain_refill_mem`, sctk_allocator.c 1378-1391. -/
def refillMem (S : Source σ) (s : CS σ) (size : Nat) : Outcome (CS σ × Bool) := do
  let (s, v) ← requestMem S s size
  if v = 0 then return (s, false)
  else do
    let h ← freeListInsert s.c.pool s.heap (vLarge v) true
    return (s.setHeap h, true)

/-- `sctk_alloc_chain_is_huge_size`, sctk_allocator.c 1430-1435 (`SCTK_HUGE_BLOC_LIMIT` = 1 MB). -/
def isHuge (c : Chain) (size : Nat) : Bool := c.hasSrc && decide (calcChunkSize size > 1048576)

/-- Search, refill, split and insertion of the residue: the locked part of
`sctk_alloc_chain_alloc_align`, sctk_allocator.c 1474-1511. `size` includes the boundary. Returns the chunk
(its info byte, 0 if out of memory). -/
def allocLocked (S : Source σ) (s : CS σ) (size : Nat) : Outcome (CS σ × Nat) := do
  let (h, chunk) ← findFreeChunk s.c.pool s.heap size
  let s := s.setHeap h
  let (s, chunk) ← (if chunk = 0 then do
      let (s, b) ← refillMem S s (calcChunkSize size)
      if b then do
        let (h, chunk) ← findFreeChunk s.c.pool s.heap size
        pure (s.setHeap h, chunk)
      else pure (s, 0)
    else pure (s, chunk))
  if chunk = 0 then return (s, 0) else
  if hSize s.w.mem chunk < 32 then .abort else do
  let (m, v, res) ← splitFreeBloc s.w.mem (largeToV chunk) size
  let s := s.setMem m
  if getSize s.w.mem v < calcChunkSize size then .abort else
  if res ≠ 0 then do
    let h ← freeListInsert s.c.pool s.heap (vLarge res) false
    return (s.setHeap h, v)
  else return (s, v)

/-- Tail of `sctk_alloc_chain_alloc_align`, sctk_allocator.c 1516-1526. -/
def padAndReturn (s : CS σ) (v boundary : Nat) : CS σ × Nat :=
  let (m, v) := if boundary > 1 then setupChunkPadded s.w.mem v boundary else (s.w.mem, v)
  (s.setMem m, if v = 0 then 0 else chunkBody v)

/-- `sctk_alloc_chain_alloc_align`, sctk_allocator.c 1444-1529 (chain not NULL, hooks off). -/
def allocAlign (S : Source σ) (s : CS σ) (boundary size : Nat) : Outcome (CS σ × Nat) :=
  if s.c.dead then .ub
  else if size = 0 then .ok (s, 0) else do
  let size := if boundary > 1 then add64 size boundary else size
  if isHuge s.c size then do
    let (s, v) ← requestMem S s size
    return padAndReturn s v boundary
  else do
    let s ← lockIf s
    let (s, v) ← allocLocked S s size
    let s ← unlockIf s
    if v = 0 then return (s, 0)
    else return padAndReturn s v boundary

/-- `sctk_alloc_chain_alloc`, sctk_allocator.c 1399-1422. `sctk_net_memory_allocation_hook` has no return
statement, so the boundary it "returns" is an indeterminate value: it is the parameter `hook`. -/
def chainAlloc (S : Source σ) (hook : Nat) (s : CS σ) (size : Nat) : Outcome (CS σ × Nat) :=
  allocAlign S s hook size

/-- `sctk_alloc_chain_free_macro_bloc`, sctk_allocator.c 1537-1575. `v` is the chunk covering the bloc. -/
def freeMacroBloc (S : Source σ) (s : CS σ) (v : Nat) : Outcome (CS σ) := do
  if getSize s.w.mem v % MB2 ≠ MB2 - 48 then return s else
  let a ← getPtr s.w.mem v
  let bloc := sub64 a 32
  let R ← (if s.c.noRegion then pure s.w.regs else regionUnsetEntry s.w.mem s.w.regs bloc)
  let (m, src) ← S.free s.w.mem s.w.src bloc
  let c := { s.c with cnt := s.c.cnt - 1 }
  let w := { s.w with mem := m, src := src, regs := R }
  if c.cnt = 0 ∧ c.handler ∧ c.threadSafe then
    return { w := w, c := { c with dead := true, calls := c.calls + 1 } }
  else return { w := w, c := c }

/-- Locked part of `sctk_alloc_chain_free`, sctk_allocator.c 1625-1646. -/
def freeLocked (S : Source σ) (s : CS σ) (v : Nat) : Outcome (CS σ) := do
  -- `sctk_alloc_get_chunk` on the first bloc: its result is not used but it may abort
  let _ ← (if s.c.base ≠ 0 then getChunk s.w.mem (add64 s.c.base 16) else pure 0)
  let (h, v) ← (if s.c.noMerge then pure (s.heap, v) else mergeChunk s.c.pool s.heap v)
  let s := s.setHeap h
  if s.c.hasSrc ∧ getSize s.w.mem v % MB2 = MB2 - 48 then freeMacroBloc S s v
  else do
    let h ← freeListInsert s.c.pool s.heap (vLarge v) true
    return s.setHeap h

/-- `sctk_alloc_chain_free`, sctk_allocator.c 1583-1653 (chain not NULL). -/
def chainFree (S : Source σ) (C : Config) (s : CS σ) (ptr : Nat) : Outcome (CS σ) :=
  if s.c.dead then .ub
  else if ptr = 0 then .ok s else do
  let v ← getChunkUnpadded s.w.mem ptr
  if v = 0 then (if C.strict then .abort else return s)
  else if infoState s.w.mem v ≠ SALLOC then .abort
  else if isHuge s.c (getSize s.w.mem v) then freeMacroBloc S s v
  else do
    let s ← lockIf s
    let s ← freeLocked S s v
    unlockIf s

/-- `memcpy`; overlapping areas are undefined behaviour. -/
def memCopy (m : Mem) (dst src n : Nat) : Outcome Mem :=
  if n = 0 ∨ dst + n ≤ src ∨ src + n ≤ dst then
    .ok (fun x => if dst ≤ x ∧ x < dst + n then m (src + (x - dst)) else m x)
  else .ub

/-- `sctk_alloc_get_unpadded_size`, sctk_alloc_inlined.h 313-316. -/
def getUnpaddedSize (m : Mem) (v : Nat) : Outcome Nat := do
  let u ← unpadVchunk m v
  return hSize m (vLarge u)

/-- `sctk_alloc_chain_realloc`, sctk_allocator.c 1680-1749 (`HAVE_MREMAP` undefined: the remap branch is
never taken because `sctk_alloc_chain_can_remap` 1659-1669 is false). -/
def chainRealloc (S : Source σ) (C : Config) (hook : Nat) (s : CS σ) (ptr size : Nat) :
    Outcome (CS σ × Nat) :=
  if ptr = 0 ∧ size = 0 then .ok (s, 0)
  else if ptr = 0 then chainAlloc S hook s size
  else if size = 0 then do
    let s ← chainFree S C s ptr
    return (s, 0)
  else do
    let v ← getChunk s.w.mem ptr
    if v ≠ 0 then do
      let u ← getUnpaddedSize s.w.mem v
      let old := sub64 u 16
      let delta := sub64 old size
      if C.reallocFactor = 0 ∧ old ≥ size ∧ delta ≤ C.reallocThreshold then .ub
      else if old ≥ size ∧ delta ≤ C.reallocThreshold ∧ delta ≤ old / C.reallocFactor then return (s, ptr)
      else do
        let (s, res) ← chainAlloc S hook s size
        let s ← (if res ≠ 0 then do
            let m ← memCopy s.w.mem res ptr (if old < size then old else size)
            pure (s.setMem m)
          else pure s)
        let s ← chainFree S C s ptr
        return (s, res)
    else if C.strict then .abort
    else return (s, 0)

/-- `sctk_alloc_chain_can_destroy`, sctk_allocator.c 1758-1780. -/
def canDestroy (s : CS σ) : Bool :=
  let first := add64 s.c.base 32
  decide (add64 (add64 (hSize s.w.mem first) 16) 32 = sub64 s.c.end_ s.c.base) &&
    decide (infoState s.w.mem (first + 15) = SFREE)

/-- `sctk_alloc_chain_destroy`, sctk_allocator.c 1153-1177 (chain not NULL), with
`sctk_mpscf_queue_destroy` (sctk_alloc_mpscf_queue.h 119-123). -/
def chainDestroy (s : CS σ) (force : Bool) : Outcome (CS σ) :=
  if !force ∧ !canDestroy s then .abort
  else if s.c.rfqHead ≠ 0 then .abort
  else if s.c.noRegion then .ok s
  else if s.c.base / TB1 ≥ 256 then .ub
  else .ok { s with w := { s.w with regs := regionDelChain s.w.mem s.w.regs (s.c.base / TB1) s.c.addr } }

/-- `sctk_mpscf_queue_insert` run alone, sctk_alloc_mpscf_queue.h 145-170 (`next` is at offset 0). -/
def queueInsert (s : CS σ) (entry : Nat) : CS σ :=
  let m := writeLE s.w.mem entry 8 0
  let prev := s.c.rfqTail
  let c := { s.c with rfqTail := entry }
  if prev = 0 then { w := { s.w with mem := m }, c := { c with rfqHead := entry } }
  else { w := { s.w with mem := writeLE m prev 8 entry }, c := c }

/-- `sctk_alloc_rfq_register`, sctk_allocator.c 2535-2569: the entry (next, ptr) is written in the block. -/
def rfqRegister (s : CS σ) (ptr : Nat) : Outcome (CS σ) :=
  if ptr = 0 then .ok s else do
  let v ← getChunk s.w.mem ptr
  if v = 0 then .ub else
  return queueInsert (s.setMem (writeLE (writeLE s.w.mem (ptr + 8) 8 ptr) ptr 8 0)) ptr

/-- `sctk_alloc_chain_remote_free`, sctk_allocator.c 2857-2863. -/
def remoteFree (S : Source σ) (C : Config) (s : CS σ) (ptr : Nat) : Outcome (CS σ) :=
  if s.c.dead then .ub
  else if s.c.threadSafe then chainFree S C s ptr
  else rfqRegister s ptr

/-- `sctk_mpscf_queue_wait_until_end_is`, sctk_alloc_mpscf_queue.h 176-196, run alone: waiting for a missing
link never ends. -/
def waitEnd (m : Mem) (cur tail : Nat) : Outcome Unit :=
  if cur = tail then .ok ()
  else if cur = 0 then .ub
  else if readLE m cur 8 ≠ 0 then waitEnd m (readLE m cur 8) tail
  else .diverge
partial_fixpoint

/-- The loop of `sctk_alloc_chain_purge_rfq`, sctk_allocator.c 1812-1824. -/
def purgeLoop (S : Source σ) (C : Config) (s : CS σ) (entry : Nat) : Outcome (CS σ) :=
  if entry = 0 then .ok s else do
  let next := readLE s.w.mem entry 8
  let s ← chainFree S C s (readLE s.w.mem (entry + 8) 8)
  purgeLoop S C s next
partial_fixpoint

/-- `sctk_alloc_chain_purge_rfq`, sctk_allocator.c 1787-1825, with `sctk_mpscft_queue_dequeue_all`
(sctk_alloc_mpscf_queue.h 202-239) run alone. -/
def purgeRfq (S : Source σ) (C : Config) (s : CS σ) : Outcome (CS σ) :=
  if s.c.dead then .ub
  else if s.c.rfqHead = 0 then .ok s else do
  let head := s.c.rfqHead
  let tail := s.c.rfqTail
  let s := { s with c := { s.c with rfqHead := 0, rfqTail := 0 } }
  waitEnd s.w.mem head tail
  purgeLoop S C s head

/-- `sctk_alloc_chain_mark_for_destroy`, sctk_allocator.c 1128-1142 (handler not NULL). -/
def markForDestroy (S : Source σ) (C : Config) (s : CS σ) : Outcome (CS σ) :=
  purgeRfq S C { s with c := { s.c with threadSafe := true, handler := true } }

end MpcAlloc
