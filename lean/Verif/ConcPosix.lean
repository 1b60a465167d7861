import Verif.PosixSpec
import Verif.Queue

/-
The process with threads that run at the same time. The model of Posix.lean takes the calls one at a time; here the calls
of the threads interleave. A call is cut into steps. The remote free queues, which is where threads meet without a lock,
are cut at each access to shared memory as in Queue.lean. Each of the following is one step: the work of a thread on its
own chain (allocation, free of one block, resize), with the requests to the memory source it makes, which the code does
under the lock of the source; the search of the chain of a pointer in the regions; the copy or the clearing of a block that
only the calling thread knows. Definitions only. Memory accesses are sequentially consistent.
-/

namespace MpcAlloc

open Queue (CPC PPC upd)

/-- What follows the allocation in the function that asked for it: return (`sctk_malloc`, `sctk_memalign`), clearing of the
block (`sctk_calloc`), copy and free of the block `p` (`sctk_realloc_inter_chain`). -/
inductive After
  | ret
  | zero
  | move (p : Nat)
deriving DecidableEq

/-- What follows the purge of the remote free queue of the thread: an allocation of `n` bytes with boundary `b`
(sctk_alloc_posix.c 571-649), or the rest of `sctk_free` for `p` (665-739), after which the call returns `r`. -/
inductive Job
  | alloc (b n : Nat) (a : After)
  | free (p r : Nat)
deriving DecidableEq

/-- Where a thread is.
* `idle`: in the client;
* `purge j c`: in `sctk_alloc_chain_purge_rfq` of its own chain, at `c`, then `j`;
* `alloc b n a`: before the allocation in its own chain;
* `zero r n`: before the `memset` of `sctk_calloc` (sctk_alloc_posix.c 566);
* `copy r p n`: before the copy in `sctk_realloc_inter_chain` (878-883);
* `look p r`: in `sctk_free`, after the purge;
* `lfree i p r`: in `sctk_free`, before `sctk_alloc_chain_free` for the chain `i`;
* `push i c r`: in `sctk_alloc_rfq_register` for the chain `i`, at `c`;
* `rlook p b n`: at the start of `sctk_realloc`;
* `rlocal i p b n`: in `sctk_realloc`, before `sctk_alloc_chain_realloc` for the chain `i`. -/
inductive MPc
  | idle
  | purge (j : Job) (c : CPC)
  | alloc (b n : Nat) (a : After)
  | zero (r n : Nat)
  | copy (r p n : Nat)
  | look (p r : Nat)
  | lfree (i p r : Nat)
  | push (i : Nat) (c : PPC) (r : Nat)
  | rlook (p b n : Nat)
  | rlocal (i p b n : Nat)
deriving DecidableEq

/-- Calls. `malloc b n` is `sctk_malloc` (`b` given by the network hook, 0 or 1 if there is none) and `sctk_memalign`. -/
inductive MCall
  | malloc (b n : Nat)
  | calloc (b n k : Nat)
  | free (p : Nat)
  | realloc (p b n : Nat)

/-- Record, not in the code, of the blocks: those of the client, those in the hands of a call of a thread (given to free or
realloc, or new and not returned yet), those in the hands of a remote free queue. -/
structure MSpec where
  live : List PBlock
  hand : List (Nat × PBlock)
  queued : List PBlock

/-- All the blocks. -/
def MSpec.all (G : MSpec) : List PBlock := G.live ++ (G.hand.map Prod.snd ++ G.queued)

/-- The block at `p`. -/
def MSpec.find (G : MSpec) (p : Nat) : List PBlock := G.all.filter (fun l => decide (l.ptr = p))

/-- The block at `p` is given back to its chain. -/
def MSpec.drop (G : MSpec) (p : Nat) : MSpec where
  live := G.live.filter (fun l => decide (l.ptr ≠ p))
  hand := G.hand.filter (fun x => decide (x.2.ptr ≠ p))
  queued := G.queued.filter (fun l => decide (l.ptr ≠ p))

/-- A call of thread `t` takes the block at `p`. -/
def MSpec.toHand (G : MSpec) (t p : Nat) : MSpec :=
  { G.drop p with hand := (G.find p).map (fun l => (t, l)) ++ (G.drop p).hand }

/-- A call returns the block at `p` to the client. -/
def MSpec.toLive (G : MSpec) (p : Nat) : MSpec := { G.drop p with live := G.find p ++ (G.drop p).live }

/-- The block with the 16 bytes of a queue entry. -/
def PBlock.wide (l : PBlock) : PBlock := { l with len := max l.len 16 }

/-- The block at `p` goes to a remote free queue, which uses its first 16 bytes. -/
def MSpec.toQueue (G : MSpec) (p : Nat) : MSpec :=
  { G.drop p with queued := (G.find p).map PBlock.wide ++ (G.drop p).queued }

/-- A call of thread `t` obtains a block from the chain of thread `o`. -/
def MSpec.add (G : MSpec) (t o r n : Nat) (plain : Bool) : MSpec :=
  if r = 0 then G else { G with hand := (t, ⟨o, r, n, plain⟩) :: G.hand }

/-- The block, with length `n` if it is at `p`. -/
def PBlock.relen (p n : Nat) (l : PBlock) : PBlock := if l.ptr = p then { l with len := n } else l

/-- The block at `p` gets the size `n`. -/
def MSpec.resize (G : MSpec) (p n : Nat) : MSpec :=
  ⟨G.live.map (PBlock.relen p n), G.hand.map (fun x => (x.1, x.2.relen p n)), G.queued.map (PBlock.relen p n)⟩

/-- Record, not in the code, of a call: memory and blocks of the client when it starts. -/
structure MRec where
  op : MCall
  mem : Mem
  live : List PBlock

/-- State of the process. `head i` and `tail i` are those of the remote free queue of the chain `i` (the fields `rfqHead`
and `rfqTail` of the records `chs` are not used). The last two fields are records that are not in the code: the blocks, and
for each thread its last call. -/
structure MS where
  w : World Light
  chs : List Chain
  head : Nat → Nat
  tail : Nat → Nat
  pc : Nat → MPc
  G : MSpec
  call : Nat → Option MRec

/-- Memory, regions, source and chains. -/
def MS.ps (k : MS) : PS := ⟨k.w, k.chs⟩

def MS.setPs (k : MS) (s : PS) : MS := { k with w := s.w, chs := s.chs }

def MS.setMem (k : MS) (m : Mem) : MS := { k with w := { k.w with mem := m } }

/-- Thread `t` goes to `c`. -/
def MS.go (k : MS) (t : Nat) (c : MPc) : MS := { k with pc := upd k.pc t c }

/-- The call of thread `t` returns `r`. -/
def MS.ret (k : MS) (t r : Nat) : MS × Option Nat := ({ k with pc := upd k.pc t .idle, G := k.G.toLive r }, some r)

/-- What follows the purge. -/
def Job.next : Job → MPc
  | .alloc b n a => .alloc b n a
  | .free p r => .look p r

/-- `entry->next`. -/
def MS.nxt (k : MS) (e : Nat) : Nat := readLE k.w.mem e 8

/-- One step of thread `t` in `sctk_alloc_chain_purge_rfq`, sctk_allocator.c 1787-1825, with
`sctk_mpscft_queue_dequeue_all` (sctk_alloc_mpscf_queue.h 202-239) and `sctk_mpscf_queue_wait_until_end_is` (176-196). -/
def purgeStep (C : Config) (k : MS) (t : Nat) (j : Job) : CPC → Outcome MS
  | .idle => .ok (if k.head t = 0 then k.go t j.next else k.go t (.purge j .load))
  | .load => .ok (k.go t (.purge j (if k.head t = 0 then .dread 0 else .clearHead (k.head t))))
  | .clearHead h => .ok ({ k with head := upd k.head t 0 }.go t (.purge j (.swapTail h)))
  | .swapTail h => .ok ({ k with tail := upd k.tail t 0 }.go t (.purge j (.walk h (k.tail t) h)))
  | .walk h tl cur =>
    if cur = tl then .ok (k.go t (.purge j (.dread h)))
    else if cur = 0 then .ub
    else .ok (if k.nxt cur = 0 then k else k.go t (.purge j (.adv h tl cur)))
  | .adv h tl cur => if cur = 0 then .ub else .ok (k.go t (.purge j (.walk h tl (k.nxt cur))))
  | .dread cur => .ok (if cur = 0 then k.go t j.next else k.go t (.purge j (.dfree cur (k.nxt cur))))
  | .dfree cur nxt => do
    let p := readLE k.w.mem (cur + 8) 8
    let u ← k.ps.loc t
    let u ← chainFree (lightSource C) C u p
    return { k.setPs (k.ps.put t u) with G := k.G.drop p }.go t (.purge j (.dread nxt))

/-- Search of the chain of `p`, sctk_alloc_posix.c 690-712 and 812-828: the new state, and the address and the index of the
chain, if `p` is in a known bloc. -/
def MS.look (k : MS) (p : Nat) : Outcome (MS × Option (Nat × Nat)) := do
  let (R, b) ← regionGetMacroBloc k.w.mem k.w.regs p
  let k := { k with w := { k.w with regs := R } }
  if b = 0 then return (k, none) else
  let a := readLE k.w.mem (b + 16) 8
  if a = 0 then .abort else
  let i ← k.ps.chainAt a
  return (k, some (a, i))

/-- One step of thread `t` in `sctk_alloc_rfq_register` for the chain `i` (sctk_allocator.c 2535-2569) and
`sctk_mpscf_queue_insert` (sctk_alloc_mpscf_queue.h 145-170). The write of the whole entry, which only this thread knows, is
one step. The call then returns `r`. -/
def pushStep (k : MS) (t i r : Nat) : PPC → Outcome (MS × Option Nat)
  | .idle => .ok (k.ret t r)
  | .clear e => do
    let v ← getChunk k.w.mem e
    if v = 0 then .ub else
    return ((k.setMem (writeLE (writeLE k.w.mem (e + 8) 8 e) e 8 0)).go t (.push i (.swap e) r), none)
  | .swap e => .ok ({ k with tail := upd k.tail i e }.go t (.push i (.link e (k.tail i)) r), none)
  | .link e p =>
    if p = 0 then .ok ({ k with head := upd k.head i e }.ret t r)
    else .ok ((k.setMem (writeLE k.w.mem p 8 e)).ret t r)

/-- One step of thread `t`; the result of its call if the step ends it.
`sctk_malloc`, `sctk_calloc`, `sctk_memalign`, `sctk_free`, `sctk_realloc` and `sctk_realloc_inter_chain`,
sctk_alloc_posix.c 561-739 and 792-891. -/
def mstep (C : Config) (k : MS) (t : Nat) : Outcome (MS × Option Nat) :=
  match k.pc t with
  | .idle => .ok (k, none)
  | .purge j c => do
    let k ← purgeStep C k t j c
    return (k, none)
  | .alloc b n a => do
    let u ← k.ps.loc t
    let (u, r) ← allocAlign (lightSource C) u b (if n = 0 then 1 else n)
    let k := { k.setPs (k.ps.put t u) with G := k.G.add t t r n (decide (b ≤ 1)) }
    match a with
    | .ret => return k.ret t r
    | .zero => return (k.go t (.zero r n), none)
    | .move p => return (k.go t (.copy r p n), none)
  | .zero r n => do
    let m ← memZero k.w.mem r n
    return (k.setMem m).ret t r
  | .copy r p n => do
    let m ← (if r ≠ 0 then do
        let g ← posixGetSize k.w.mem p
        memCopy k.w.mem r p (if n < g then n else g)
      else pure k.w.mem)
    return ((k.setMem m).go t (.purge (.free p r) .idle), none)
  | .look p r =>
    if p = 0 then .ok (k.ret t r) else do
    let u ← k.ps.loc t
    let (k, x) ← k.look p
    match x with
    | none => if C.strict then .abort else return k.ret t r
    | some (a, i) => do
      let v ← k.ps.loc i
      if v.c.threadSafe ∨ a = u.c.addr then return (k.go t (.lfree i p r), none)
      else return ({ k with G := k.G.toQueue p }.go t (.push i (.clear p) r), none)
  | .lfree i p r => do
    let v ← k.ps.loc i
    let v ← chainFree (lightSource C) C v p
    return { k.setPs (k.ps.put i v) with G := k.G.drop p }.ret t r
  | .push i c r => pushStep k t i r c
  | .rlook p b n => do
    let u ← k.ps.loc t
    let (k, x) ← k.look p
    match x with
    | none => .abort
    | some (a, i) => do
      let v ← k.ps.loc i
      if a = u.c.addr ∨ v.c.threadSafe then return (k.go t (.rlocal i p b n), none)
      else return (k.go t (.purge (.alloc b n (.move p)) .idle), none)
  | .rlocal i p b n => do
    let v ← k.ps.loc i
    let (v, r) ← chainRealloc (lightSource C) C b v p n
    let k := { k.setPs (k.ps.put i v) with
      G := if r = p then k.G.resize p n else (k.G.drop p).add t i r n (decide (b ≤ 1)) }
    return k.ret t r

/-- Thread `t` calls `op`. A block given to free or realloc leaves the client. -/
def MS.start (k : MS) (t : Nat) (op : MCall) : MS :=
  let k := { k with call := upd k.call t (some ⟨op, k.w.mem, k.G.live⟩) }
  match op with
  | .malloc b n => k.go t (.purge (.alloc b n .ret) .idle)
  | .calloc b n j => k.go t (.purge (.alloc b (n * j % W64) .zero) .idle)
  | .free p => { k with G := k.G.toHand t p }.go t (.purge (.free p 0) .idle)
  | .realloc p b n =>
    if p = 0 then k.go t (.purge (.alloc b n .ret) .idle)
    else if n = 0 then { k with G := k.G.toHand t p }.go t (.purge (.free p 0) .idle)
    else { k with G := k.G.toHand t p }.go t (.rlook p b n)

/-- What thread `t` may call. -/
def MValid (k : MS) (t : Nat) : MCall → Prop
  | .malloc b n => GoodBound b ∧ PSize (reqSize b n)
  | .calloc b n j => GoodBound b ∧ n * j < W64 ∧ PSize (reqSize b (n * j))
  | .free p => p = 0 ∨ ∃ l ∈ k.G.live, l.ptr = p
  | .realloc p b n => GoodBound b ∧ PSize (reqSize b n) ∧
      (p = 0 ∨ ∃ l ∈ k.G.live, l.ptr = p ∧ (n = 0 ∨ l.owner ≠ t ∨ l.plain = true ∨ n ≤ l.len))

/-- Calls without request of a size just below the huge limit. -/
def MClean : MCall → Prop
  | .malloc b n => CleanSize (reqSize b n)
  | .calloc b n j => CleanSize (reqSize b (n * j))
  | .free _ => True
  | .realloc _ b n => CleanSize (reqSize b n)

/-- The new chain has an empty remote free queue, sctk_alloc_mpscf_queue.h 107-115. -/
def MS.spawned (k : MS) (s : PS) : MS :=
  { k.setPs s with head := upd k.head k.chs.length 0, tail := upd k.tail k.chs.length 0 }

/-- Reachable states of the process, for the calls that satisfy `X`: at the start as in `PReach`; then, in any order, calls
by threads that are in the client, steps of threads, stores of the client into its blocks, and new threads. -/
inductive MReach (C : Config) (X : MCall → Prop) : MS → Prop
  | init {m : Mem} {R : Regions} {o : Os} : R.OK → (∀ k, R.ent k = 0) →
      (∀ x, x ≤ MB2 → o.used x = true) →
      MReach C X ⟨⟨m, R, Light.init o⟩, [], fun _ => 0, fun _ => 0, fun _ => .idle, ⟨[], [], []⟩, fun _ => none⟩
  | call {k : MS} {t : Nat} {op : MCall} : MReach C X k → t < k.chs.length → k.pc t = .idle → MValid k t op → X op →
      MReach C X (k.start t op)
  | step {k k' : MS} {t : Nat} {o : Option Nat} : MReach C X k → mstep C k t = .ok (k', o) → MReach C X k'
  | write {k : MS} {l : PBlock} {a : Nat} {v : UInt8} : MReach C X k → l ∈ k.G.live → l.Byte a →
      MReach C X (k.setMem (fun x => if x = a then v else k.w.mem x))
  | spawn {k : MS} {s : PS} {a z pb : Nat} : MReach C X k → PValid k.ps ⟨[], []⟩ (.spawn a z pb) →
      posixSpawn k.ps a z pb = .ok s → MReach C X (k.spawned s)

end MpcAlloc
