import Verif.Header

/-
Thread pool: free lists, search, split and merge (/repo/src/sctk_allocator.c 197-971).
Definitions only; proofs are in FreeListLemmas.lean.
-/

namespace MpcAlloc

/-- Constant part of `struct sctk_thread_pool` (sctk_alloc_chain.h): address of `free_lists[0]`,
class table, `nb_free_lists`, and whether `reverse_analytic_free_size` is set. -/
structure Pool where
  base : Nat
  sizes : List Int
  nb : Nat
  analytic : Bool

/-- Variable part seen by the pool functions: memory (with the list heads) and `free_list_status`.
Simplification: the status array is kept outside of the byte memory, the heads are inside. -/
structure Heap where
  mem : Mem
  status : Nat → Bool

/-- Update of one entry of `free_list_status`. -/
def setStatus (st : Nat → Bool) (i : Nat) (b : Bool) : Nat → Bool :=
  fun k => if k = i then b else st k

/-- `&pool->free_lists[i]` (`sizeof(struct sctk_alloc_free_chunk)` is 32). -/
def Pool.head (P : Pool) (i : Nat) : Nat := P.base + 32 * i

/-- `fchunk->next` -/
def getNext (m : Mem) (a : Nat) : Nat := readLE m (a + 16) 8
/-- `fchunk->prev` -/
def getPrev (m : Mem) (a : Nat) : Nat := readLE m (a + 24) 8
/-- `fchunk->next = v` -/
def setNext (m : Mem) (a v : Nat) : Mem := writeLE m (a + 16) 8 v
/-- `fchunk->prev = v` -/
def setPrev (m : Mem) (a v : Nat) : Mem := writeLE m (a + 24) 8 v

/-- The loop of `sctk_alloc_thread_pool_init` on one list head, sctk_allocator.c 223-229. -/
def initHead (m : Mem) (h : Nat) : Mem :=
  let m := setAddrByte m h 0
  let m := setMagic m (h + 15) 0
  let m := setSize m h 0
  let m := setNext m h h
  setPrev m h h

/-- Initialise the heads `0 .. n-1`. -/
def initHeads (m : Mem) (base : Nat) : Nat → Mem
  | 0 => m
  | n + 1 => initHead (initHeads m base n) (base + 32 * n)

/-- Computation of `nb_free_lists` in `sctk_alloc_thread_pool_init`, sctk_allocator.c 230-248: last
position that is not -1, rounded up to the next even number that is larger, aborting when it
reaches 48. (With a table full of -1 the C code reads an uninitialised field: UB.) -/
def initNb (t : List Int) : Outcome Nat :=
  match (List.range 48).filter (fun i => t[i]? ≠ some (-1)) |>.getLast? with
  | none => .ub
  | some i =>
    let nb := if i % 2 = 0 then i + 2 else i + 1
    if nb < 48 then .ok nb else .abort

/-- `sctk_alloc_thread_pool_init`, sctk_allocator.c 204-255. The comparison of table addresses
(`alloc_free_sizes == SCTK_ALLOC_FREE_SIZES`) is represented by the flag `analytic`. -/
def threadPoolInit (m : Mem) (base : Nat) (t : List Int) (analytic : Bool) :
    Outcome (Heap × Pool) := do
  let nb ← initNb t
  return ({ mem := initHeads m base 48, status := fun _ => false },
          { base := base, sizes := t, nb := nb, analytic := analytic })

/-- Index of a list from the address of its head: `list - pool->free_lists`. An address that is not
a head of the pool would index outside of `free_list_status`: undefined behaviour. -/
def Pool.listId (P : Pool) (a : Nat) : Outcome Nat :=
  if P.base ≤ a ∧ a < P.base + 32 * 48 then .ok ((a - P.base) / 32) else .ub

/-- Link a chunk in a list, sctk_allocator.c 509-526 (`INSERT_AT_END` / `INSERT_AT_START`). -/
def linkChunk (m : Mem) (flist f : Nat) (atEnd : Bool) : Outcome Mem :=
  if atEnd then
    let m := setPrev m f (getPrev m flist)
    let m := setNext m f flist
    if getPrev m flist = 0 then .ub else
    let m := setNext m (getPrev m flist) f
    .ok (setPrev m flist f)
  else
    let m := setPrev m f flist
    let m := setNext m f (getNext m flist)
    if getNext m flist = 0 then .ub else
    let m := setPrev m (getNext m flist) f
    .ok (setNext m flist f)

/-- `sctk_alloc_free_list_insert`, sctk_allocator.c 473-530. -/
def freeListInsert (P : Pool) (s : Heap) (chunk : Nat) (atEnd : Bool) : Outcome Heap := do
  let i ← insertIdx P.sizes P.nb P.analytic (hSize s.mem chunk)
  if i < 0 ∨ 48 ≤ i then .ub else
  let flist := P.head i.toNat
  let m := setState s.mem (chunk + 15) SFREE
  let m ← linkChunk m flist chunk atEnd
  return { mem := m, status := setStatus s.status i.toNat true }

/-- `sctk_alloc_free_list_remove`, sctk_allocator.c 537-563. -/
def freeListRemove (P : Pool) (s : Heap) (f : Nat) : Outcome Heap := do
  let prev := getPrev s.mem f
  let next := getNext s.mem f
  if prev = 0 ∨ next = 0 then .ub else
  let m := setPrev s.mem next prev
  let m := setNext m prev next
  let status ← (if next = prev then do
      let id ← P.listId prev
      pure (setStatus s.status id false)
    else pure s.status)
  let m := setNext m f 0
  let m := setPrev m f 0
  let m := setState m (f + 15) SALLOC
  return { mem := m, status := status }

/-- The loop of `sctk_alloc_find_adapted_free_chunk`, sctk_allocator.c 579-588. Both sides of the
size comparison are signed in C. -/
def findLoop (m : Mem) (list : Nat) (size : Int) (f : Nat) : Outcome Nat :=
  if f ≠ 0 ∧ f ≠ list ∧ toS (hSize m f) < size then findLoop m list size (getNext m f)
  else if f = list then .ok 0 else .ok f
partial_fixpoint

/-- `sctk_alloc_find_adapted_free_chunk`, sctk_allocator.c 571-589. -/
def findAdapted (m : Mem) (list : Nat) (size : Nat) : Outcome Nat :=
  findLoop m list (toS size) (getNext m list)

/-- `sctk_alloc_find_first_free_non_empty_list`, sctk_allocator.c 665-689: first `i` with
`id <= i < nb_free_lists` whose status is set. -/
def firstNonEmpty (status : Nat → Bool) (id nb : Nat) : Option Nat :=
  (List.range' id (nb - id)).find? status

/-- `sctk_alloc_find_free_chunk`, sctk_allocator.c 701-740: the chunk found (0 if none), removed
from its list. -/
def findFreeChunk (P : Pool) (s : Heap) (userSize : Nat) : Outcome (Heap × Nat) := do
  let size := calcChunkSize userSize
  let i ← getFreeList P.sizes P.nb P.analytic size
  if i < 0 ∨ 48 ≤ i then .ub else
  let start := i.toNat
  let res ← (match firstNonEmpty s.status start P.nb with
    | some l => findAdapted s.mem (P.head l) size
    | none => .ok 0)
  let res ← (if res = 0 ∧ start ≠ 0 then findAdapted s.mem (P.head (start - 1)) size else .ok res)
  if res ≠ 0 then
    let s ← freeListRemove P s res
    return (s, res)
  else
    return (s, 0)

/-- `sctk_alloc_split_free_bloc`, sctk_allocator.c 806-846: memory, updated chunk, residue (0 if
none). -/
def splitFreeBloc (m : Mem) (v userSize : Nat) : Outcome (Mem × Nat × Nat) := do
  let size := alignSize16 (calcChunkSize userSize)
  let residutSize := sub64 (getSize m v) size
  if residutSize ≥ 32 then
    let a ← getPtr m v
    let residutStart := add64 a size
    let p ← getPtr m v
    let (m, res) := setupChunk m residutStart residutSize p
    let p ← getPtr m v
    let a ← getPtr m v
    let (m, v) := setupChunk m p size (sub64 a (getPrevSize m v))
    let next := getNextChunk m res
    let m := setPrevSize m (vLarge next) residutSize
    return (m, v, res)
  else
    return (m, v, 0)

/-- First loop of `sctk_alloc_merge_chunk`, sctk_allocator.c 927-938: walk to the left over free
chunks, removing them from their lists. Returns the leftmost merged chunk. -/
def mergeLeft (P : Pool) (s : Heap) (first cur : Nat) : Outcome (Heap × Nat) :=
  if cur ≠ 0 ∧ infoState s.mem cur = SFREE then do
    let f ← getPtr s.mem cur
    let s ← freeListRemove P s f
    mergeLeft P s cur (getPrevChunk s.mem cur)
  else .ok (s, first)
partial_fixpoint

/-- Second loop of `sctk_alloc_merge_chunk`, sctk_allocator.c 943-954: walk to the right. -/
def mergeRight (P : Pool) (s : Heap) (last cur : Nat) : Outcome (Heap × Nat) :=
  if cur ≠ 0 ∧ infoState s.mem cur = SFREE then do
    let f ← getPtr s.mem cur
    let s ← freeListRemove P s f
    mergeRight P s cur (getNextChunk s.mem cur)
  else .ok (s, last)
partial_fixpoint

/-- `sctk_alloc_merge_chunk`, sctk_allocator.c 911-971. -/
def mergeChunk (P : Pool) (s : Heap) (chunk : Nat) : Outcome (Heap × Nat) := do
  if infoState s.mem chunk ≠ SALLOC then .abort else
  let (s, first) ← mergeLeft P s chunk (getPrevChunk s.mem chunk)
  let (s, last) ← mergeRight P s chunk (getNextChunk s.mem chunk)
  let al ← getPtr s.mem last
  let af ← getPtr s.mem first
  let size := add64 (sub64 al af) (getSize s.mem last)
  let cur := getNextChunk s.mem last
  let m := setPrevSize s.mem (vLarge cur) size
  let p ← getPtr m first
  let a ← getPtr m first
  let (m, v) := setupChunk m p size (sub64 a (getPrevSize m first))
  return ({ s with mem := m }, v)

end MpcAlloc
