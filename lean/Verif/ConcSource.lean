import Verif.PosixSpec
import Verif.LightSource

/-
Concurrent calls on one thread safe chain that has a memory source: the chains of `sctk_malloc_on_node`
(sctk_alloc_on_node.c, build with hwloc), which all threads share. `sctk_alloc_chain_alloc_align` (sctk_allocator.c
1444-1529), `sctk_alloc_chain_free` (1583-1653) and `sctk_alloc_chain_realloc` (1680-1749) are cut into steps of threads
that interleave.

Steps of their own are: the accesses to the lock word, the reads of the header before the lock (free, realloc), the
write of the padded header after the unlock (alloc), the copy of a realloc, and, for huge blocks, which take no lock of
the chain, the exchange of a bloc with the source, the read and the write of the counter of blocs. The code
between lock and unlock is one step, and so is the exchange of a bloc with the source and the regions, each of which has
a lock of its own. Accesses to memory are sequentially consistent.
-/

namespace MpcAlloc
namespace OnNode

variable {σ : Type}

/-! ## Blocs without the counter -/

/-- `sctk_alloc_chain_request_mem` up to the counter, sctk_allocator.c 1260-1298. -/
def takeBloc (S : Source σ) (s : CS σ) (size : Nat) : Outcome (CS σ × Nat) :=
  if !s.c.hasSrc then .ok (s, 0) else do
  let (m, src, bloc) ← S.request s.w.mem s.w.src (requestSize size)
  prepareBloc { s with w := { s.w with mem := m, src := src } } bloc

/-- `sctk_alloc_chain_free_macro_bloc` between the test of the size and the counter, sctk_allocator.c 1549-1565. -/
def giveBloc (S : Source σ) (s : CS σ) (v : Nat) : Outcome (CS σ) := do
  let a ← getPtr s.w.mem v
  let bloc := sub64 a 32
  let R ← (if s.c.noRegion then pure s.w.regs else regionUnsetEntry s.w.mem s.w.regs bloc)
  let (m, src) ← S.free s.w.mem s.w.src bloc
  return { s with w := { s.w with mem := m, src := src, regs := R } }

/-! ## Threads -/

/-- A block that a client owns: pointer, requested size, boundary with which it was obtained. -/
structure Blk where
  ptr : Nat
  len : Nat
  bound : Nat

/-- What comes after an allocation: return the block, or (realloc) copy the block `l`, whose chunk has `old` bytes. -/
inductive Cont where
  | ret
  | move (l : Blk) (old : Nat)

/-- What is done under the lock. In a free, `v` is the chunk and `r` the new block if it is the end of a realloc. -/
inductive Job where
  | alloc (b n : Nat) (q : Cont)
  | free (p v : Nat) (r : Option Blk)

/-- Where a thread is. `v` is a chunk, `r` the block that a realloc is going to return.
* `idle`: in no call;
* `swap`, `load`: in `sctk_alloc_spinlock_lock` (sctk_alloc_internal_spinlock.h 54-61), at `OPA_swap_int` or at
  `OPA_load_int`;
* `crit`: the lock is taken, lines 1477-1510 (alloc) or 1626-1647 (free) come next;
* `unlockA`, `unlockF`: at `sctk_alloc_spinlock_unlock` (line 1497 or 1517; line 1651);
* `hugeReq`: at `sctk_alloc_chain_request_mem` (line 1469);
* `hugeLoad`, `hugeStore`: at the read and the write of `chain->cnt_macro_blocs++` (line 1304);
* `pad`: lines 1520-1528 come next;
* `copy`: at the `memcpy` of realloc (line 1736);
* `freeRead`: at the reads of the header (lines 1597-1616);
* `hugeFree`: at `sctk_alloc_chain_free_macro_bloc` (line 1622);
* `cntLoad`, `cntStore`: at the read and the write of `chain->cnt_macro_blocs--` (line 1568);
* `resize`: at the reads of the header in realloc (lines 1699-1719). -/
inductive Pc where
  | idle
  | swap (j : Job)
  | load (j : Job)
  | crit (j : Job)
  | unlockA (b n v : Nat) (q : Cont)
  | hugeReq (b n : Nat) (q : Cont)
  | hugeLoad (b n v : Nat) (q : Cont)
  | hugeStore (b n v : Nat) (x : Int) (q : Cont)
  | pad (b n v : Nat) (q : Cont)
  | copy (l : Blk) (old : Nat) (d : Blk)
  | freeRead (p : Nat) (r : Option Blk)
  | unlockF (r : Option Blk)
  | hugeFree (p v : Nat) (r : Option Blk)
  | cntLoad (r : Option Blk)
  | cntStore (x : Int) (r : Option Blk)
  | resize (b n : Nat) (l : Blk)

/-- The memory and the chain (`s`, its lock word is `s.c.lock`), and the position of every thread. The other fields
are ghost state: `live` the blocks that clients own; `data` the last value that a client stored in a byte of a block. -/
structure KS (σ : Type) where
  s : CS σ
  pc : Nat → Pc
  live : List Blk
  data : Nat → Option UInt8

/-- What a thread that is `idle` starts; the other threads just go on. -/
inductive Act where
  | alloc (b n : Nat)
  | free (p : Nat)
  | realloc (b p n : Nat)
  | write (a : Nat) (v : UInt8)

/-- Thread `t` is now at `p`. -/
def KS.goto (k : KS σ) (t : Nat) (p : Pc) : KS σ := { k with pc := fun u => if u = t then p else k.pc u }

/-- The lock word. -/
def KS.setLock (k : KS σ) (b : Bool) : KS σ := { k with s := { k.s with c := { k.s.c with lock := b } } }

/-- The counter of blocs. -/
def KS.setCnt (k : KS σ) (x : Int) : KS σ := { k with s := { k.s with c := { k.s.c with cnt := x } } }

/-- The block at `p` is no longer that of a client. -/
def KS.take (k : KS σ) (p : Nat) : KS σ := { k with live := k.live.filter (fun l => decide (l.ptr ≠ p)) }

/-- A client gets a block. -/
def KS.give (k : KS σ) : Option Blk → KS σ
  | none => k
  | some d => { k with live := d :: k.live }

/-- Nothing is known of the bytes of the block but those that the clients stored in the first bytes of block `l`. -/
def KS.inherit (k : KS σ) (d l : Blk) : KS σ :=
  { k with data := fun x => if d.ptr ≤ x ∧ x < d.ptr + d.len then
      (if x - d.ptr < l.len then k.data (l.ptr + (x - d.ptr)) else none) else k.data x }

/-- Size of a request with its boundary, lines 1459-1460. -/
def withBound (b n : Nat) : Nat := if b > 1 then add64 n b else n

/-- Beginning of an allocation, lines 1454-1475: huge blocks bypass the lock. -/
def KS.enter (k : KS σ) (t b n : Nat) (q : Cont) : KS σ :=
  k.goto t (if isHuge k.s.c (withBound b n) then .hugeReq b n q else .swap (.alloc b n q))

/-- A thread that is `idle` starts a call. `sctk_alloc_chain_alloc_align` returns NULL for size 0 (line 1454),
`sctk_alloc_chain_free` ignores NULL (line 1594); realloc with NULL or with size 0, lines 1687-1697. A store of the client is
one step. -/
def start (k : KS σ) (t : Nat) : Act → Outcome (KS σ)
  | .alloc b n => if n = 0 then .ok k else .ok (k.enter t b n .ret)
  | .free p => if p = 0 then .ok k else .ok ((k.take p).goto t (.freeRead p none))
  | .realloc b p n =>
    if p = 0 then (if n = 0 then .ok k else .ok (k.enter t b n .ret))
    else if n = 0 then .ok ((k.take p).goto t (.freeRead p none))
    else match k.live.find? (fun l => decide (l.ptr = p)) with
      | some l => .ok ((k.take p).goto t (.resize b n l))
      | none => .ub
  | .write a v =>
    .ok { k with s := k.s.setMem (fun x => if x = a then v else k.s.w.mem x),
                 data := fun x => if x = a then some v else k.data x }

/-- End of an allocation of `n` bytes that gives `r`. A realloc goes on, lines 1730-1743: without new block it frees the old
one all the same. -/
def KS.allocated (k : KS σ) (t b n r : Nat) : Cont → KS σ
  | .ret => if r = 0 then k.goto t .idle else ((k.inherit ⟨r, n, b⟩ ⟨r, 0, b⟩).give (some ⟨r, n, b⟩)).goto t .idle
  | .move l old => if r = 0 then k.goto t (.freeRead l.ptr none) else k.goto t (.copy l old ⟨r, n, b⟩)

/-- One step of thread `t`. -/
def step (S : Source σ) (C : Config) (k : KS σ) (t : Nat) (a : Act) : Outcome (KS σ) :=
  match k.pc t with
  | .idle => start k t a
  | .swap j => .ok ((k.setLock true).goto t (if k.s.c.lock then .load j else .crit j))
  | .load j => .ok (k.goto t (if k.s.c.lock then .load j else .swap j))
  | .crit (.alloc b n q) => do
    let (s, v) ← allocLocked S k.s (withBound b n)
    return { k with s := s }.goto t (.unlockA b n v q)
  | .crit (.free _ v r) => do
    let s ← freeLocked S k.s v
    return { k with s := s }.goto t (.unlockF r)
  | .unlockA b n v q => .ok (if v = 0 then (k.setLock false).allocated t b n 0 q else (k.setLock false).goto t (.pad b n v q))
  | .hugeReq b n q => do
    let (s, v) ← takeBloc S k.s (withBound b n)
    return { k with s := s }.goto t (if v = 0 then .pad b n v q else .hugeLoad b n v q)
  | .hugeLoad b n v q => .ok (k.goto t (.hugeStore b n v k.s.c.cnt q))
  | .hugeStore b n v x q => .ok ((k.setCnt (x + 1)).goto t (.pad b n v q))
  | .pad b n v q =>
    let (s, r) := padAndReturn k.s v b
    .ok ({ k with s := s }.allocated t b n r q)
  | .copy l old d => do
    let m ← memCopy k.s.w.mem d.ptr l.ptr (if old < d.len then old else d.len)
    return ({ k with s := k.s.setMem m }.inherit d l).goto t (.freeRead l.ptr (some d))
  | .freeRead p r => do
    let v ← getChunkUnpadded k.s.w.mem p
    if v = 0 then (if C.strict then .abort else return (k.give r).goto t .idle)
    else if infoState k.s.w.mem v ≠ SALLOC then .abort
    else return k.goto t (if isHuge k.s.c (getSize k.s.w.mem v) then .hugeFree p v r else .swap (.free p v r))
  | .unlockF r => .ok (((k.setLock false).give r).goto t .idle)
  | .hugeFree _ v r =>
    if getSize k.s.w.mem v % MB2 ≠ MB2 - 48 then .ok ((k.give r).goto t .idle) else do
    let s ← giveBloc S k.s v
    return { k with s := s }.goto t (.cntLoad r)
  | .cntLoad r => .ok (k.goto t (.cntStore k.s.c.cnt r))
  | .cntStore x r =>
    -- line 1572: the chains of sctk_malloc_on_node have no destroy handler
    if x - 1 = 0 ∧ k.s.c.handler ∧ k.s.c.threadSafe then .abort else .ok (((k.setCnt (x - 1)).give r).goto t .idle)
  | .resize b n l => do
    let v ← getChunk k.s.w.mem l.ptr
    if v = 0 then (if C.strict then .abort else return k.goto t .idle)
    else do
      let u ← getUnpaddedSize k.s.w.mem v
      let old := sub64 u 16
      let delta := sub64 old n
      if C.reallocFactor = 0 ∧ old ≥ n ∧ delta ≤ C.reallocThreshold then .ub
      else if old ≥ n ∧ delta ≤ C.reallocThreshold ∧ delta ≤ old / C.reallocFactor then
        return ((k.inherit ⟨l.ptr, n, l.bound⟩ l).give (some ⟨l.ptr, n, l.bound⟩)).goto t .idle
      else return k.enter t b n (.move l old)

/-! ## Start of the chain, and selection of a chain -/

/-- A chain of `sctk_malloc_on_node_init`, sctk_alloc_on_node.c 76-86: a user chain without buffer, thread safe, to which the
memory source of the node is linked. -/
def nodeChain (w : World σ) (addr pb : Nat) : Outcome (CS σ) := do
  let s ← userInit w addr pb 0 0 true false false
  return { s with c := { s.c with hasSrc := true } }

/-- `sctk_malloc_on_node_get_chain`, sctk_alloc_on_node.c 112-130, and `sctk_malloc_on_node_numa`, 148-166: index of the chain
that serves node `node`, `none` for the allocator of the thread. `nodes` is the number of nodes given to
`sctk_malloc_on_node_init` (62-91: the chains of the other nodes have no source), `numa` the answer of
`mpcalloc_topology_has_numa_nodes`; the assertions are off. -/
def nodeIndex (nodes : Nat) (numa : Bool) (node : Int) : Outcome (Option Nat) :=
  if numa then
    if 0 ≤ node ∧ node < 128 then (if node < nodes then .ok (some node.toNat) else .abort) else .abort
  else if node = 0 then .ok none else .abort

/-! ## Specification -/

/-- Bytes of a block. -/
def Blk.Byte (l : Blk) (x : Nat) : Prop := l.ptr ≤ x ∧ x < l.ptr + l.len

/-- Two blocks share no byte, and their pointers differ. -/
def Blk.Disj (l l' : Blk) : Prop := l.ptr ≠ l'.ptr ∧ ∀ x, ¬ (l.Byte x ∧ l'.Byte x)

/-- What a thread that is `idle` may start, given the blocks that clients own now. Blocks with a boundary may not grow by
realloc (finding 5 of DESIGN.md). -/
def Valid (k : KS σ) : Act → Prop
  | .alloc b n => GoodBound b ∧ PSize (reqSize b n)
  | .free p => p = 0 ∨ ∃ l ∈ k.live, l.ptr = p
  | .realloc b p n => GoodBound b ∧ PSize (reqSize b n) ∧
      (p = 0 ∨ ∃ l ∈ k.live, l.ptr = p ∧ (n = 0 ∨ l.bound ≤ 1 ∨ n ≤ l.len))
  | .write a _ => ∃ l ∈ k.live, l.Byte a

/-- No request of a size just below the huge limit. -/
def CleanAct : Act → Prop
  | .alloc b n => CleanSize (reqSize b n)
  | .realloc b _ n => CleanSize (reqSize b n)
  | _ => True

/-- The states that the threads reach, in any order of steps, from a chain that was just started: nothing is registered
in the regions, the cache of the source is empty, the structure of the chain and the first 2 MB of the
address space are in use. `X` restricts the calls that are made. -/
inductive Reach (C : Config) (addr pb : Nat) (X : Act → Prop) : KS Light → Prop
  | init {m : Mem} {R : Regions} {o : Os} {s : CS Light} : R.OK → (∀ i, R.ent i = 0) →
      (∀ x, x ≤ MB2 → o.used x = true) → 0 < pb → pb + 1536 < W64 →
      (∀ x, pb ≤ x → x < pb + 1536 → o.used x = true) →
      nodeChain ⟨m, R, Light.init o⟩ addr pb = .ok s →
      Reach C addr pb X ⟨s, fun _ => .idle, [], fun _ => none⟩
  | step {k k' : KS Light} {t : Nat} {a : Act} : Reach C addr pb X k → (k.pc t = .idle → Valid k a ∧ X a) →
      step (lightSource C) C k t a = .ok k' → Reach C addr pb X k'

/-- Whether the kernel has memory for a step: it would map the size plus 2 MB and 80 bytes of headers. -/
def StepMem (k : KS Light) (t : Nat) : Prop :=
  match k.pc t with
  | .crit (.alloc b n _) | .hugeReq b n _ =>
    k.s.w.src.os.Fresh (k.s.w.src.os.ans k.s.w.src.os.k) (reqSize b n + 80 + MB2)
  | _ => True

/-- Steps from a state. -/
inductive Steps (C : Config) (X : Act → Prop) : KS Light → KS Light → Prop
  | refl (k : KS Light) : Steps C X k k
  | step {k k' k'' : KS Light} {t : Nat} {a : Act} : (k.pc t = .idle → Valid k a ∧ X a) →
      OnNode.step (lightSource C) C k t a = .ok k' → Steps C X k' k'' → Steps C X k k''

end OnNode
end MpcAlloc
