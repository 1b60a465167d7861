import Verif.Spec

/-
Concurrent calls on one thread safe chain without memory source: `sctk_alloc_chain_alloc_align`
(sctk_allocator.c 1444-1529) and `sctk_alloc_chain_free` (1583-1653) cut into steps of threads that interleave.

The accesses to the lock word, the reads of the header before the lock (free) and the write of the padded header
after the unlock (alloc) are steps of their own. The code between lock and unlock is one step: only the thread that
holds the lock runs it (C28), and what other threads do meanwhile is one of the other steps. Accesses to memory are
sequentially consistent. The lock is the one of sctk_alloc_internal_spinlock.h 54-67 (chosen in sctk_alloc_lock.h 78;
the pthread and Windows locks of the same file are left out).
-/

namespace MpcAlloc

variable {σ : Type}

/-- Where a thread is. `i` is the rank of the call in the log (ghost), `v` a chunk.
* `idle`: in no call;
* `allocSwap`, `allocLoad`: in `sctk_alloc_spinlock_lock` (line 1475), at `OPA_swap_int` or at `OPA_load_int`;
* `allocCrit`: the lock is taken, lines 1477-1510 come next;
* `allocUnlock`: at `sctk_alloc_spinlock_unlock` (line 1497 or 1517);
* `allocPad`: after the unlock, lines 1520-1528 come next;
* `freeRead`: at the reads of the header, lines 1597-1612;
* `freeSwap`, `freeLoad`: in `sctk_alloc_spinlock_lock` (line 1621);
* `freeCrit`: the lock is taken, lines 1626-1647 come next;
* `freeUnlock`: at `sctk_alloc_spinlock_unlock` (line 1651). -/
inductive KPc where
  | idle
  | allocSwap (b n : Nat)
  | allocLoad (b n : Nat)
  | allocCrit (b n : Nat)
  | allocUnlock (b n v i : Nat)
  | allocPad (b n v i : Nat)
  | freeRead (p : Nat)
  | freeSwap (p v : Nat)
  | freeLoad (p v : Nat)
  | freeCrit (p v : Nat)
  | freeUnlock (i : Nat)

/-- The memory and the chain (`s`, its lock word is `s.c.lock`), and the position of every thread. The other fields
are ghost state: `live` the blocks that clients own, that is returned by an allocation and not passed to a free;
`log` the calls in the order in which they got the lock; `ret` what the calls that are over returned; `data` the
last value that a client stored in a byte of a block since it got the block. -/
structure KS (σ : Type) where
  s : CS σ
  pc : Nat → KPc
  live : List Block
  log : List Op
  ret : Nat → Option Nat
  data : Nat → Option UInt8

/-- What a thread that is `idle` starts; the other threads just go on. -/
inductive KAct where
  | alloc (b n : Nat)
  | free (p : Nat)
  | write (a : Nat) (v : UInt8)

/-- Thread `t` is now at `p`. -/
def KS.goto (k : KS σ) (t : Nat) (p : KPc) : KS σ := { k with pc := fun u => if u = t then p else k.pc u }

/-- The lock word. -/
def KS.setLock (k : KS σ) (b : Bool) : KS σ := { k with s := { k.s with c := { k.s.c with lock := b } } }

/-- Entry `op` in the log. -/
def KS.enter (k : KS σ) (op : Op) : KS σ := { k with log := k.log ++ [op] }

/-- The call of rank `i` returns `r`. -/
def KS.return (k : KS σ) (i r : Nat) : KS σ := { k with ret := fun j => if j = i then some r else k.ret j }

/-- A call that takes no lock: it is entered in the log and returns 0 at once. -/
def KS.now (k : KS σ) (op : Op) : KS σ := (k.enter op).return k.log.length 0

/-- A thread that is `idle` starts a call. `sctk_alloc_chain_alloc_align` returns NULL for size 0 (line 1454),
`sctk_alloc_chain_free` ignores NULL (line 1594). A store of the client is one step. -/
def kstart (k : KS σ) (t : Nat) : KAct → Outcome (KS σ)
  | .alloc b n => if n = 0 then .ok (k.now (.alloc b n)) else .ok (k.goto t (.allocSwap b n))
  | .free p =>
    if p = 0 then .ok (k.now (.free p))
    else .ok ({ k with live := k.live.filter (fun l => decide (l.ptr ≠ p)) }.goto t (.freeRead p))
  | .write a v =>
    .ok ({ k with s := k.s.setMem (fun x => if x = a then v else k.s.w.mem x),
                  data := fun x => if x = a then some v else k.data x }.now (.write a v))

/-- The caller gets the result `r` of an allocation of `n` bytes: if it is not NULL it owns the block and has stored
nothing in it. -/
def KS.give (k : KS σ) (b n r : Nat) : KS σ :=
  { k with live := account k.live (.alloc b n) r,
           data := fun x => if r ≠ 0 ∧ r ≤ x ∧ x < r + n then none else k.data x }

/-- One step of thread `t`. -/
def kstep (S : Source σ) (C : Config) (k : KS σ) (t : Nat) (a : KAct) : Outcome (KS σ) :=
  match k.pc t with
  | .idle => kstart k t a
  | .allocSwap b n => .ok ((k.setLock true).goto t (if k.s.c.lock then .allocLoad b n else .allocCrit b n))
  | .allocLoad b n => .ok (k.goto t (if k.s.c.lock then .allocLoad b n else .allocSwap b n))
  | .allocCrit b n => do
    let (s, v) ← allocLocked S k.s (if b > 1 then add64 n b else n)
    return ({ k with s := s }.enter (.alloc b n)).goto t (.allocUnlock b n v k.log.length)
  | .allocUnlock b n v i => .ok ((k.setLock false).goto t (.allocPad b n v i))
  | .allocPad b n v i =>
    let (s, r) := if v = 0 then (k.s, 0) else padAndReturn k.s v b
    .ok ((({ k with s := s }.give b n r).return i r).goto t .idle)
  | .freeRead p => do
    let v ← getChunkUnpadded k.s.w.mem p
    if v = 0 then (if C.strict then .abort else return (k.now (.free p)).goto t .idle)
    else if infoState k.s.w.mem v ≠ SALLOC then .abort
    else return k.goto t (.freeSwap p v)
  | .freeSwap p v => .ok ((k.setLock true).goto t (if k.s.c.lock then .freeLoad p v else .freeCrit p v))
  | .freeLoad p v => .ok (k.goto t (if k.s.c.lock then .freeLoad p v else .freeSwap p v))
  | .freeCrit p v => do
    let s ← freeLocked S k.s v
    return ({ k with s := s }.enter (.free p)).goto t (.freeUnlock k.log.length)
  | .freeUnlock i => .ok (((k.setLock false).return i 0).goto t .idle)

/-- What a thread that is `idle` may start: as in `ValidOp`, for the blocks that clients own now. -/
def KValid (B : List (Nat × Nat)) (k : KS σ) : KAct → Prop
  | .alloc b n => GoodBound b ∧ SizeOK B b n
  | .free p => p = 0 ∨ ∃ l ∈ k.live, l.ptr = p
  | .write a _ => ∃ l ∈ k.live, l.Byte a

/-- No thread is in a call. -/
def KS.Quiescent (k : KS σ) : Prop := ∀ t, k.pc t = .idle

/-- The states that the threads reach from a state `s` with live blocks `L`, in any order of steps. -/
inductive KReach (S : Source σ) (C : Config) (B : List (Nat × Nat)) (s : CS σ) (L : List Block) : KS σ → Prop
  | init : KReach S C B s L ⟨s, fun _ => .idle, L, [], fun _ => none, fun _ => none⟩
  | step {k k' : KS σ} {t : Nat} {a : KAct} : KReach S C B s L k → (k.pc t = .idle → KValid B k a) →
      kstep S C k t a = .ok k' → KReach S C B s L k'

end MpcAlloc
