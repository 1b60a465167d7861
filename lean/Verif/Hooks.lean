import Verif.Spec

/-
The chains in the builds with `ENABLE_ALLOC_HOOKS` (/repo/src/sctk_alloc_hooks.h, sctk_alloc_hooks.c): the same functions
as in Chain.lean, with the events sent to an instrumentation library. Definitions only.

Simplification: a hook is an observer. It records its arguments; it does not call the allocator and it changes neither the
memory of the allocator nor the table of hooks.
-/

namespace MpcAlloc.Hooks

variable {σ : Type}

/-- Which entries of `sctk_alloc_gbl_hooks` are set (`struct sctk_alloc_hooks`, sctk_alloc_hooks.h 70-87), for the events of
one chain. -/
structure Tab where
  init : Bool
  destroy : Bool
  addBloc : Bool
  freeBloc : Bool
  flush : Bool
  flushEntry : Bool
  alloc : Bool
  free : Bool
  hugeAlloc : Bool
  hugeFree : Bool
  split : Bool
  merge : Bool

/-- `sctk_alloc_hooks_init`, sctk_alloc_hooks.c 46-56: nothing is set. -/
def Tab.none : Tab := ⟨false, false, false, false, false, false, false, false, false, false, false, false⟩

/-- Everything is set, but the event of a purge (see `C67_refuted_flush`). -/
def Tab.most : Tab := ⟨true, true, true, true, false, true, true, true, true, true, true, true⟩

/-- Calls of the hooks with their arguments, sctk_alloc_hooks.h 51-66. The first argument is always the chain. -/
inductive Ev where
  | init (c : Nat)
  | destroy (c : Nat)
  | addBloc (c bloc : Nat)
  | freeBloc (c bloc : Nat)
  | flush (c nb : Nat)
  | flushEntry (c ptr : Nat)
  | alloc (c request ptr size boundary : Nat)
  | free (c ptr size : Nat)
  | hugeAlloc (c request ptr size boundary : Nat)
  | hugeFree (c ptr size : Nat)
  | split (c base size residut : Nat)
  | merge (c base size : Nat)
deriving DecidableEq

/-- The macro `SCTK_ALLOC_HOOK` for arguments that are computed without effect, sctk_alloc_hooks.h 35. -/
def emit (b : Bool) (e : Ev) : List Ev := if b then [e] else []

/-- `sctk_alloc_chain_base_init` with its event, sctk_allocator.c 978-1003. The other `_init` functions are the same with
and without hooks. -/
def baseInitH (H : Tab) (w : World σ) (addr pb : Nat) (ts nm nr : Bool) : Outcome (CS σ × List Ev) :=
  chainBaseInit w addr pb ts nm nr >>= fun s => .ok (s, emit H.init (.init addr))

/-- `sctk_alloc_chain_destroy`, sctk_allocator.c 1153-1177: the event (1166) comes after the test of the blocks and before
the removal of the queue and of the regions. -/
def destroyH (H : Tab) (s : CS σ) (force : Bool) : Outcome (CS σ × List Ev) :=
  chainDestroy s force >>= fun s' => .ok (s', emit H.destroy (.destroy s.c.addr))

/-- `sctk_alloc_chain_request_mem`, sctk_allocator.c 1260-1308. The event of line 1293 comes before the test of the bloc. -/
def requestMemH (H : Tab) (S : Source σ) (s : CS σ) (size : Nat) : Outcome (CS σ × Nat × List Ev) :=
  if !s.c.hasSrc then .ok (s, 0, []) else
  S.request s.w.mem s.w.src (requestSize size) >>= fun r =>
  prepareBloc { s with w := { s.w with mem := r.1, src := r.2.1 } } r.2.2 >>= fun q =>
  .ok (if q.2 = 0 then q.1 else { q.1 with c := { q.1.c with cnt := q.1.c.cnt + 1 } }, q.2,
    emit H.addBloc (.addBloc s.c.addr r.2.2))

/-- `sctk_alloc_chain_refill_mem`, sctk_allocator.c 1378-1391. -/
def refillMemH (H : Tab) (S : Source σ) (s : CS σ) (size : Nat) : Outcome (CS σ × Bool × List Ev) :=
  requestMemH H S s size >>= fun r =>
  if r.2.1 = 0 then .ok (r.1, false, r.2.2)
  else freeListInsert r.1.c.pool r.1.heap (vLarge r.2.1) true >>= fun h => .ok (r.1.setHeap h, true, r.2.2)

/-- First search and refill of `sctk_alloc_chain_alloc_align`, sctk_allocator.c 1478-1484. -/
def searchH (H : Tab) (S : Source σ) (s : CS σ) (size : Nat) : Outcome (CS σ × Nat × List Ev) :=
  findFreeChunk s.c.pool s.heap size >>= fun f =>
  if f.2 = 0 then
    refillMemH H S (s.setHeap f.1) (calcChunkSize size) >>= fun r =>
    if r.2.1 then findFreeChunk r.1.c.pool r.1.heap size >>= fun g => .ok (r.1.setHeap g.1, g.2, r.2.2)
    else .ok (r.1, 0, r.2.2)
  else .ok (s.setHeap f.1, f.2, [])

/-- The event of a split, sctk_allocator.c 1509: its first argument reads the type of the header. -/
def splitHook (H : Tab) (s : CS σ) (v res : Nat) : Outcome (List Ev) :=
  if H.split then
    getPtr s.w.mem v >>= fun p => .ok [.split s.c.addr p (getSize s.w.mem v) (getSize s.w.mem res)]
  else .ok []

/-- Split and insertion of the residue, sctk_allocator.c 1486-1510. -/
def takeH (H : Tab) (s : CS σ) (chunk size : Nat) : Outcome (CS σ × Nat × List Ev) :=
  if hSize s.w.mem chunk < 32 then .abort else
  splitFreeBloc s.w.mem (largeToV chunk) size >>= fun q =>
  if getSize q.1 q.2.1 < calcChunkSize size then .abort else
  if q.2.2 ≠ 0 then
    freeListInsert s.c.pool (s.setMem q.1).heap (vLarge q.2.2) false >>= fun h =>
    splitHook H ((s.setMem q.1).setHeap h) q.2.1 q.2.2 >>= fun e => .ok ((s.setMem q.1).setHeap h, q.2.1, e)
  else .ok (s.setMem q.1, q.2.1, [])

/-- The locked part of `sctk_alloc_chain_alloc_align` before its own event, sctk_allocator.c 1478-1510. -/
def allocLockedH (H : Tab) (S : Source σ) (s : CS σ) (size : Nat) : Outcome (CS σ × Nat × List Ev) :=
  searchH H S s size >>= fun r =>
  if r.2.1 = 0 then .ok (r.1, 0, r.2.2)
  else takeH H r.1 r.2.1 size >>= fun q => .ok (q.1, q.2.1, r.2.2 ++ q.2.2)

/-- Third argument of the events of an allocation, sctk_allocator.c 1471 and 1513: the padded header is set up by the
argument itself. Memory and pointer. -/
def hookPad (m : Mem) (v boundary : Nat) : Mem × Nat :=
  let q := if boundary > 1 then setupChunkPadded m v boundary else (m, v)
  (q.1, chunkBody q.2)

/-- Event of a huge allocation, sctk_allocator.c 1471. `size` includes the boundary. The size is read in the header before
`vchunk`: nothing is mapped there when `vchunk` is NULL. -/
def hugeHook (H : Tab) (s : CS σ) (v boundary size : Nat) : Outcome (CS σ × List Ev) :=
  if H.hugeAlloc then
    if v = 0 then .ub
    else .ok (s.setMem (hookPad s.w.mem v boundary).1,
      [.hugeAlloc s.c.addr (sub64 size boundary) (hookPad s.w.mem v boundary).2 (getSize s.w.mem v) boundary])
  else .ok (s, [])

/-- Event of an allocation that is not huge, sctk_allocator.c 1513. `size` includes the boundary. -/
def allocHook (H : Tab) (s : CS σ) (v boundary size : Nat) : CS σ × List Ev :=
  if H.alloc then
    (s.setMem (hookPad s.w.mem v boundary).1,
      [.alloc s.c.addr size (hookPad s.w.mem v boundary).2 (getSize s.w.mem v) boundary])
  else (s, [])

/-- `sctk_alloc_chain_alloc_align`, sctk_allocator.c 1444-1529 (chain not NULL). The pad of line 1519 is done again after
the one of the event. -/
def allocAlignH (H : Tab) (S : Source σ) (s : CS σ) (boundary size : Nat) : Outcome (CS σ × Nat × List Ev) :=
  if s.c.dead then .ub
  else if size = 0 then .ok (s, 0, [])
  else
  let size := if boundary > 1 then add64 size boundary else size
  if isHuge s.c size then
    requestMemH H S s size >>= fun r =>
    hugeHook H r.1 r.2.1 boundary size >>= fun q =>
    .ok ((padAndReturn q.1 r.2.1 boundary).1, (padAndReturn q.1 r.2.1 boundary).2, r.2.2 ++ q.2)
  else
    lockIf s >>= fun s =>
    allocLockedH H S s size >>= fun r =>
    if r.2.1 = 0 then unlockIf r.1 >>= fun s => .ok (s, 0, r.2.2)
    else
      unlockIf (allocHook H r.1 r.2.1 boundary size).1 >>= fun s =>
      .ok ((padAndReturn s r.2.1 boundary).1, (padAndReturn s r.2.1 boundary).2,
        r.2.2 ++ (allocHook H r.1 r.2.1 boundary size).2)

/-- `sctk_alloc_chain_free_macro_bloc`, sctk_allocator.c 1537-1575, the event being at line 1564. -/
def freeMacroBlocH (H : Tab) (S : Source σ) (s : CS σ) (v : Nat) : Outcome (CS σ × List Ev) :=
  freeMacroBloc S s v >>= fun s' =>
  if getSize s.w.mem v % MB2 ≠ MB2 - 48 then .ok (s', [])
  else getPtr s.w.mem v >>= fun a => .ok (s', emit H.freeBloc (.freeBloc s.c.addr (sub64 a 32)))

/-- Merge with its event, sctk_allocator.c 1630-1635. The address is only read if the event is sent. -/
def mergeH (H : Tab) (s : CS σ) (v : Nat) : Outcome (CS σ × Nat × List Ev) :=
  (if s.c.noMerge then .ok (s.heap, v) else mergeChunk s.c.pool s.heap v) >>= fun q =>
  if H.merge ∧ getSize s.w.mem v ≠ getSize q.1.mem q.2 then
    getPtr q.1.mem q.2 >>= fun p => .ok (s.setHeap q.1, q.2, [.merge s.c.addr p (getSize q.1.mem q.2)])
  else .ok (s.setHeap q.1, q.2, [])

/-- Locked part of `sctk_alloc_chain_free` after its own event, sctk_allocator.c 1626-1646. -/
def freeLockedH (H : Tab) (S : Source σ) (s : CS σ) (v : Nat) : Outcome (CS σ × List Ev) :=
  (if s.c.base ≠ 0 then getChunk s.w.mem (add64 s.c.base 16) else .ok 0) >>= fun _ =>
  mergeH H s v >>= fun q =>
  if q.1.c.hasSrc ∧ getSize q.1.w.mem q.2.1 % MB2 = MB2 - 48 then
    freeMacroBlocH H S q.1 q.2.1 >>= fun r => .ok (r.1, q.2.2 ++ r.2)
  else
    freeListInsert q.1.c.pool q.1.heap (vLarge q.2.1) true >>= fun h => .ok (q.1.setHeap h, q.2.2)

/-- `sctk_alloc_chain_free`, sctk_allocator.c 1583-1653 (chain not NULL). -/
def chainFreeH (H : Tab) (S : Source σ) (C : Config) (s : CS σ) (ptr : Nat) : Outcome (CS σ × List Ev) :=
  if s.c.dead then .ub
  else if ptr = 0 then .ok (s, [])
  else
  getChunkUnpadded s.w.mem ptr >>= fun v =>
  if v = 0 then (if C.strict then .abort else .ok (s, []))
  else if infoState s.w.mem v ≠ SALLOC then .abort
  else if isHuge s.c (getSize s.w.mem v) then
    freeMacroBlocH H S s v >>= fun r => .ok (r.1, emit H.hugeFree (.hugeFree s.c.addr ptr (getSize s.w.mem v)) ++ r.2)
  else
    lockIf s >>= fun s1 =>
    freeLockedH H S s1 v >>= fun r =>
    unlockIf r.1 >>= fun s2 => .ok (s2, emit H.free (.free s.c.addr ptr (getSize s.w.mem v)) ++ r.2)

/-- The copy of `sctk_alloc_chain_realloc`, sctk_allocator.c 1725-1735. -/
def copyTo (s : CS σ) (res ptr n : Nat) : Outcome (CS σ) :=
  if res ≠ 0 then memCopy s.w.mem res ptr n >>= fun m => .ok (s.setMem m) else .ok s

/-- `sctk_alloc_chain_realloc`, sctk_allocator.c 1680-1749: it sends no event of its own. -/
def chainReallocH (H : Tab) (S : Source σ) (C : Config) (hook : Nat) (s : CS σ) (ptr size : Nat) :
    Outcome (CS σ × Nat × List Ev) :=
  if ptr = 0 ∧ size = 0 then .ok (s, 0, [])
  else if ptr = 0 then allocAlignH H S s hook size
  else if size = 0 then chainFreeH H S C s ptr >>= fun r => .ok (r.1, 0, r.2)
  else
    getChunk s.w.mem ptr >>= fun v =>
    if v ≠ 0 then
      getUnpaddedSize s.w.mem v >>= fun u =>
      if C.reallocFactor = 0 ∧ sub64 u 16 ≥ size ∧ sub64 (sub64 u 16) size ≤ C.reallocThreshold then .ub
      else if sub64 u 16 ≥ size ∧ sub64 (sub64 u 16) size ≤ C.reallocThreshold ∧
          sub64 (sub64 u 16) size ≤ sub64 u 16 / C.reallocFactor then .ok (s, ptr, [])
      else
        allocAlignH H S s hook size >>= fun r =>
        copyTo r.1 r.2.1 ptr (if sub64 u 16 < size then sub64 u 16 else size) >>= fun s1 =>
        chainFreeH H S C s1 ptr >>= fun q => .ok (q.1, r.2.1, r.2.2 ++ q.2)
    else if C.strict then .abort
    else .ok (s, 0, [])

/-- The loop of `sctk_alloc_rfq_count_entries`, sctk_allocator.c 2589-2598, as written: it tests `entries` and moves `cur`. -/
def countLoop (m : Mem) (entries cur cnt : Nat) : Outcome Nat :=
  if entries = 0 then .ok cnt
  else if cur = 0 then .ub
  else countLoop m entries (readLE m cur 8) (cnt + 1)
partial_fixpoint

/-- `sctk_alloc_rfq_count_entries`. -/
def countEntries (m : Mem) (entries : Nat) : Outcome Nat := countLoop m entries entries 0

/-- The event of a purge, sctk_allocator.c 1806-1807 (the list is not empty). -/
def flushHook (H : Tab) (s : CS σ) (head : Nat) : Outcome (List Ev) :=
  if H.flush then countEntries s.w.mem head >>= fun k => .ok [.flush s.c.addr k] else .ok []

/-- The loop of `sctk_alloc_chain_purge_rfq`, sctk_allocator.c 1812-1824. -/
def purgeLoopH (H : Tab) (S : Source σ) (C : Config) (s : CS σ) (entry : Nat) : Outcome (CS σ × List Ev) :=
  if entry = 0 then .ok (s, []) else
  chainFreeH H S C s (readLE s.w.mem (entry + 8) 8) >>= fun r =>
  purgeLoopH H S C r.1 (readLE s.w.mem entry 8) >>= fun q =>
  .ok (q.1, emit H.flushEntry (.flushEntry s.c.addr (readLE s.w.mem (entry + 8) 8)) ++ r.2 ++ q.2)
partial_fixpoint

/-- `sctk_alloc_chain_purge_rfq`, sctk_allocator.c 1787-1825, with `sctk_mpscft_queue_dequeue_all`
(sctk_alloc_mpscf_queue.h 202-239) run alone. -/
def purgeRfqH (H : Tab) (S : Source σ) (C : Config) (s : CS σ) : Outcome (CS σ × List Ev) :=
  if s.c.dead then .ub
  else if s.c.rfqHead = 0 then .ok (s, []) else
  waitEnd s.w.mem s.c.rfqHead s.c.rfqTail >>= fun _ =>
  flushHook H s s.c.rfqHead >>= fun e =>
  purgeLoopH H S C { s with c := { s.c with rfqHead := 0, rfqTail := 0 } } s.c.rfqHead >>= fun r => .ok (r.1, e ++ r.2)

/-- Execution of one call of a client of a chain (`exec` of Spec.lean) in the build with hooks. A refill with a buffer of
the client (`sctk_alloc_chain_user_refill`, sctk_allocator.c 1046-1077) has no event. -/
def execH (H : Tab) (S : Source σ) (C : Config) (s : CS σ) : Op → Outcome (CS σ × Nat × List Ev)
  | .alloc b n => allocAlignH H S s b n
  | .free p => chainFreeH H S C s p >>= fun r => .ok (r.1, 0, r.2)
  | .realloc p b n => chainReallocH H S C b s p n
  | .refill buf sz => userRefill s buf sz >>= fun s => .ok (s, 0, [])
  | .write a v => .ok (s.setMem (fun x => if x = a then v else s.w.mem x), 0, [])

end MpcAlloc.Hooks
