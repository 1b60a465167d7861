import Verif.Concurrent

/-
Concurrent calls of `sctk_alloc_chain_realloc` (sctk_allocator.c 1680-1749) on one thread safe chain without memory
source, together with the allocations, frees and stores of Concurrent.lean. `sctk_alloc_chain_realloc` takes no lock of
its own: it reads the header of the block, then calls `sctk_alloc_chain_alloc`, `memcpy` and `sctk_alloc_chain_free`;
other threads run between any two of its steps.

The steps of the calls to alloc and free are those of Concurrent.lean. The reads of the header and the decision (lines
1711-1723) are one step. The copy is one step for each byte, from the first to the last (memcpy is free to choose another
order or larger steps; nobody else may look at the new block meanwhile). `HAVE_MREMAP` is undefined.
-/

namespace MpcAlloc
namespace CR

variable {σ : Type}

/-- A call of realloc that is running: the block `l` that it was given, the boundary `b` that the network hook asks for, the
new size `n`; `snap i` is the byte `i` of the block when the call began (ghost). -/
structure Call where
  l : Block
  b : Nat
  n : Nat
  snap : Nat → UInt8

/-- Where a thread is in a realloc.
* `out`: in no realloc (it may be in another call, see `KS.pc`);
* `read`: lines 1707-1723 come next;
* `alloc`: in `sctk_alloc_chain_alloc` (line 1735), `old` is `old_size`;
* `copy`: in `memcpy` (lines 1737-1741) at byte `i`, `q` is what the allocation returned;
* `release`: in `sctk_alloc_chain_free` (line 1743). -/
inductive Pc where
  | out
  | read (c : Call)
  | alloc (c : Call) (old : Nat)
  | copy (c : Call) (old q i : Nat)
  | release (c : Call) (q : Nat)

/-- The chain and its threads (`k`, Concurrent.lean), the place of every thread in a realloc, and what the last
realloc of every thread returned (ghost). -/
structure RS (σ : Type) where
  k : KS σ
  pc : Nat → Pc
  last : Nat → Option Nat

/-- What a thread that is in no call starts. -/
inductive Act where
  | plain (a : KAct)
  | realloc (p b n : Nat)

/-- Thread `t` is now at `p`, the chain at `k`. -/
def RS.goto (r : RS σ) (k : KS σ) (t : Nat) (p : Pc) : RS σ := ⟨k, fun u => if u = t then p else r.pc u, r.last⟩

/-- The realloc of thread `t` returns `q`. -/
def RS.done (r : RS σ) (k : KS σ) (t q : Nat) : RS σ :=
  ⟨k, fun u => if u = t then .out else r.pc u, fun u => if u = t then some q else r.last u⟩

/-- In no alloc or free. -/
def idleB : KPc → Bool
  | .idle => true
  | _ => false

/-- Rank of the allocation that is about to return. -/
def rankOf : KPc → Nat
  | .allocPad _ _ _ i => i
  | _ => 0

/-- Block of the client at `p`. -/
def blockAt (k : KS σ) (p : Nat) : Block := (k.live.find? (fun l => decide (l.ptr = p))).getD ⟨p, 0, true⟩

/-- The block stays where it is and has `n` bytes from now on: ghost state only. The bytes that were not in the
block before hold nothing. -/
def resize (k : KS σ) (c : Call) : KS σ :=
  ({ k with live := account k.live (.realloc c.l.ptr c.b c.n) c.l.ptr,
            data := fun x => if c.l.ptr + c.l.len ≤ x ∧ x < c.l.ptr + c.n then none else k.data x }.enter
    (.realloc c.l.ptr c.b c.n)).return k.log.length c.l.ptr

/-- The call is entered; the bytes of the block are recorded as its contents (ghost). -/
def begin (k : KS σ) (p b n : Nat) : KS σ × Call :=
  let l := blockAt k p
  ({ k with data := fun x => if l.ptr ≤ x ∧ x < l.ptr + l.len then some (k.s.w.mem x) else k.data x },
    ⟨l, b, n, fun i => k.s.w.mem (l.ptr + i)⟩)

/-- A thread that is in no call starts one. `sctk_alloc_chain_realloc` without pointer or without size: lines 1696-1706. -/
def rstart (S : Source σ) (C : Config) (r : RS σ) (t : Nat) : Act → Outcome (RS σ)
  | .plain a => do
    let k ← kstep S C r.k t a
    return r.goto k t .out
  | .realloc p b n =>
    if p = 0 ∧ n = 0 then .ok (r.done (r.k.now (.realloc 0 b 0)) t 0)
    else if p = 0 then do
      let k ← kstep S C r.k t (.alloc b n)
      return r.goto k t .out
    else if n = 0 then do
      let k ← kstep S C r.k t (.free p)
      return r.goto k t .out
    else .ok (r.goto (begin r.k p b n).1 t (.read (begin r.k p b n).2))

/-- One step of thread `t`. -/
def rstep (S : Source σ) (C : Config) (r : RS σ) (t : Nat) (a : Act) : Outcome (RS σ) :=
  match r.pc t with
  | .out =>
    if idleB (r.k.pc t) then rstart S C r t a
    else do
      let k ← kstep S C r.k t (.free 0)
      return r.goto k t .out
  | .read c => do
    let v ← getChunk r.k.s.w.mem c.l.ptr
    if v = 0 then (if C.strict then .abort else return r.done r.k t 0)
    else do
      let u ← getUnpaddedSize r.k.s.w.mem v
      let old := sub64 u 16
      let delta := sub64 old c.n
      if C.reallocFactor = 0 ∧ old ≥ c.n ∧ delta ≤ C.reallocThreshold then .ub
      else if old ≥ c.n ∧ delta ≤ C.reallocThreshold ∧ delta ≤ old / C.reallocFactor then
        return r.done (resize r.k c) t c.l.ptr
      else do
        let k ← kstep S C r.k t (.alloc c.b c.n)
        return r.goto k t (.alloc c old)
  | .alloc c old => do
    let k ← kstep S C r.k t (.free 0)
    if idleB (k.pc t) then do
      let q := (k.ret (rankOf (r.k.pc t))).getD 0
      let m := if old < c.n then old else c.n
      if q ≠ 0 ∧ m ≠ 0 ∧ q < c.l.ptr + m ∧ c.l.ptr < q + m then .ub
      else return r.goto k t (.copy c old q 0)
    else return r.goto k t (.alloc c old)
  | .copy c old q i =>
    if q ≠ 0 ∧ i < (if old < c.n then old else c.n) then do
      let k ← kstep S C r.k t (.write (q + i) (r.k.s.w.mem (c.l.ptr + i)))
      return r.goto k t (.copy c old q (i + 1))
    else do
      let k ← kstep S C r.k t (.free c.l.ptr)
      return r.goto k t (.release c q)
  | .release c q => do
    let k ← kstep S C r.k t (.free 0)
    if idleB (k.pc t) then return r.done k t q
    else return r.goto k t (.release c q)

/-! ## Specification -/

/-- Pointers of the blocks that a realloc works with: the old one until it is passed to free, the new one until it is
returned. -/
def held : Pc → List Nat
  | .out => []
  | .read c => [c.l.ptr]
  | .alloc c _ => [c.l.ptr]
  | .copy c _ q _ => [c.l.ptr, q]
  | .release _ q => [q]

/-- No realloc works with the block at `p`. -/
def Unheld (r : RS σ) (p : Nat) : Prop := ∀ t, p ∉ held (r.pc t)

/-- The call that a thread is in. -/
def callOf : Pc → Option Call
  | .out => none
  | .read c => some c
  | .alloc c _ => some c
  | .copy c _ _ _ => some c
  | .release c _ => some c

/-- What a thread that is in no call may start: the blocks that it uses are owned by clients and are not given to a
realloc that is running; a block with a boundary may not grow (finding 5 of DESIGN.md). -/
def Valid (B : List (Nat × Nat)) (r : RS σ) : Act → Prop
  | .plain (.alloc b n) => GoodBound b ∧ SizeOK B b n
  | .plain (.free p) => p = 0 ∨ ∃ l ∈ r.k.live, l.ptr = p ∧ Unheld r p
  | .plain (.write a _) => ∃ l ∈ r.k.live, l.Byte a ∧ Unheld r l.ptr
  | .realloc p b n => GoodBound b ∧ SizeOK B b n ∧
      (p = 0 ∨ ∃ l ∈ r.k.live, l.ptr = p ∧ Unheld r p ∧ (n = 0 ∨ l.plain = true ∨ n ≤ l.len))

/-- Thread `t` is in no call. -/
def RS.Idle (r : RS σ) (t : Nat) : Prop := r.pc t = .out ∧ r.k.pc t = .idle

/-- The states that the threads reach from a state `s` with live blocks `L`, in any order of steps. -/
inductive Reach (S : Source σ) (C : Config) (B : List (Nat × Nat)) (s : CS σ) (L : List Block) : RS σ → Prop
  | init : Reach S C B s L ⟨⟨s, fun _ => .idle, L, [], fun _ => none, fun _ => none⟩, fun _ => .out, fun _ => none⟩
  | step {r r' : RS σ} {t : Nat} {a : Act} : Reach S C B s L r → (r.Idle t → Valid B r a) →
      rstep S C r t a = .ok r' → Reach S C B s L r'

end CR
end MpcAlloc
