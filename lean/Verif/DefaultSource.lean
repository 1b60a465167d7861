import Verif.LightSource

/-
The default memory source (/repo/src/sctk_allocator.c 1826-2143): free lists of macro blocs over one heap, with the
class table `SCTK_ALLOC_MMS_FREE_SIZES`. Definitions only.
-/

namespace MpcAlloc

/-- `sctk_mmap(a, n)` with a non-NULL address, sctk_alloc_common.c 62-72 (`MAP_FIXED`): the kernel maps `n` bytes at `a`,
replacing what is there, when its next answer is `a`; else `MAP_FAILED`. New pages are zero. -/
def mmapFixed (m : Mem) (o : Os) (a n : Nat) : Mem × Os × Nat :=
  if o.ans o.k = a ∧ a % 4096 = 0 ∧ 0 < n ∧ a + pageUp n ≤ 140737488355328 then
    (fun x => if a ≤ x ∧ x < a + pageUp n then 0 else m x,
      { o with k := o.k + 1, used := fun x => if a ≤ x ∧ x < a + pageUp n then true else o.used x }, a)
  else (m, { o with k := o.k + 1 }, W64 - 1)

/-- `struct sctk_alloc_mm_source_default`, sctk_alloc_mmsrc_default.h 41-49. Simplification: apart from the list heads these
fields are kept outside of the byte memory. -/
structure DSource where
  pool : Pool
  status : Nat → Bool
  lock : Bool
  heapAddr : Nat
  heapSize : Nat

/-- What the functions of the source work on: memory, regions, operating system. -/
structure DW where
  mem : Mem
  regs : Regions
  os : Os

/-- `sctk_alloc_region_get(a) == sctk_alloc_region_get(b)`, sctk_allocator.c 2251-2254. -/
def sameRegion (R : Regions) (a b : Nat) : Outcome Bool :=
  if a / TB1 ≥ 256 ∨ b / TB1 ≥ 256 then .ub
  else .ok (decide (a / TB1 = b / TB1) || (!R.mapped (a / TB1) && !R.mapped (b / TB1)))

/-- `sctk_alloc_mm_source_insert_segment`, sctk_allocator.c 1836-1884. `pb` is the address of the list heads of the
source. Returns the pool and its status array. -/
def dInsertSegment (w : DW) (pb base size : Nat) : Outcome (DW × Pool × (Nat → Bool)) := do
  if base % MB2 ≠ 0 then .abort else
  if size % MB2 ≠ 0 then .abort else
  let same ← sameRegion w.regs base (sub64 (add64 base size) 1)
  if !same then .abort else
  let size := sub64 size 4096
  let (m, o, start) := mmapFixed w.mem w.os base 4096
  if start = W64 - 1 then .abort else
  let (m, o, end_) := mmapFixed m o (add64 base size) 4096
  if end_ = W64 - 1 then .abort else
  let (m, v) := setupChunk m start size 0
  let m := createStopper m end_ start
  let (h, P) ← threadPoolInit m pb mmsFreeSizes false
  let h ← freeListInsert P h (vLarge v) true
  return (⟨writeLE h.mem (start + 32) 4 0, w.regs, o⟩, P, h.status)

/-- The loop of `sctk_alloc_mm_source_default_init`, sctk_allocator.c 1929-1933. -/
def dRegionLoop (R : Regions) (end_ cur : Nat) : Outcome Regions :=
  if cur < end_ then
    if cur / TB1 ≥ 256 then .ub else dRegionLoop (regionSetup R (cur / TB1)) end_ (add64 cur TB1)
  else .ok R
partial_fixpoint

/-- `sctk_alloc_mm_source_default_init`, sctk_allocator.c 1909-1941. -/
def defaultInit (w : DW) (pb base size : Nat) : Outcome (DW × DSource) := do
  if base % MB2 ≠ 0 then .abort else
  if size % MB2 ≠ 0 then .abort else
  let R ← dRegionLoop w.regs (add64 base size) base
  let (w, P, st) ← dInsertSegment { w with regs := R } pb base size
  return (w, ⟨P, st, false, base, size⟩)

/-- `sctk_alloc_mm_source_default_request_memory`, sctk_allocator.c 1951-2040 (`maping` is at offset 32, 1 is
`SCTK_ALLOC_BLOC_MAPPED`). When `mmap` fails the lock is not released. -/
def defaultRequest (w : DW) (d : DSource) (n : Nat) : Outcome (DW × DSource × Nat) := do
  if n % MB2 ≠ 0 then .abort else
  if d.lock then .diverge else
  let size := sub64 n 16
  let (h, bloc) ← findFreeChunk d.pool ⟨w.mem, d.status⟩ size
  if bloc = 0 then return ({ w with mem := h.mem }, { d with status := h.status }, 0) else
  let mapping := readLE h.mem (bloc + 32) 4
  let (m, o, tmp) := (if mapping ≠ 1 then
      mmapFixed h.mem w.os (add64 bloc 4096) (if hSize h.mem bloc = n then sub64 n 4096 else n)
    else (h.mem, w.os, 0))
  if tmp = W64 - 1 then return ({ w with mem := m, os := o }, { d with status := h.status, lock := true }, 0) else
  let (m, v, res) ← splitFreeBloc m (largeToV bloc) size
  if getSize m v < calcChunkSize size then .abort else
  let h ← (if res ≠ 0 then do
      let b ← getPtr m res
      freeListInsert d.pool ⟨writeLE m (b + 32) 4 mapping, h.status⟩ (vLarge res) false
    else pure ⟨m, h.status⟩)
  let mb ← getPtr h.mem v
  return ({ w with mem := writeLE h.mem (mb + 16) 8 0, os := o }, { d with status := h.status }, mb)

/-- `sctk_alloc_mm_source_default_free_memory`, sctk_allocator.c 2050-2108. -/
def defaultFree (w : DW) (d : DSource) (bloc : Nat) : Outcome (DW × DSource) := do
  if bloc = 0 then return (w, d) else
  let v ← getChunk w.mem (add64 bloc 16)
  if v = 0 then return (w, d) else
  if infoState w.mem v ≠ SALLOC then .abort else
  if d.lock then .diverge else
  let (h, v) ← mergeChunk d.pool ⟨w.mem, d.status⟩ v
  let f ← getPtr h.mem v
  let m := writeLE h.mem (f + 32) 4 0
  let o := munmap w.os (add64 f 4096) (sub64 (getSize m v) 4096)
  let h ← freeListInsert d.pool ⟨m, h.status⟩ (vLarge v) false
  return ({ w with mem := h.mem, os := o }, { d with status := h.status })

/-- `sctk_alloc_region_del_chain(region, NULL)` and `sctk_alloc_region_del`, sctk_allocator.c 2363-2385 and 2424-2456:
forget all the entries of a region, then its header. -/
def regionDel (R : Regions) (id : Nat) : Regions :=
  if R.mapped id then ⟨fun k => if k = id then false else R.mapped k, fun k => if k / 524288 = id then 0 else R.ent k⟩
  else R

/-- The loop of `sctk_alloc_mm_source_default_cleanup`, sctk_allocator.c 2126-2135. -/
def dCleanLoop (R : Regions) (end_ cur : Nat) : Outcome Regions :=
  if cur < end_ then
    if cur / TB1 ≥ 256 then .ub else dCleanLoop (regionDel R (cur / TB1)) end_ (add64 cur TB1)
  else .ok R
partial_fixpoint

/-- `sctk_alloc_mm_source_default_cleanup`, sctk_allocator.c 2114-2143: one page more than the heap is unmapped. -/
def defaultCleanup (w : DW) (d : DSource) : Outcome DW := do
  if d.lock then .abort else
  let R ← dCleanLoop w.regs (add64 d.heapAddr d.heapSize) d.heapAddr
  return { w with regs := R, os := munmap w.os d.heapAddr (add64 d.heapSize 4096) }

end MpcAlloc
