import Verif.Spec
import Verif.Posix

/-
Client side specification of the POSIX level: threads that allocate, free and resize, with the blocks of all threads.
Nothing here mentions chunks, blocs, queues or any other internal of the allocator.
-/

namespace MpcAlloc

/-- A block: the thread that obtained it, pointer, requested size, and whether it was obtained without boundary. -/
structure PBlock where
  owner : Nat
  ptr : Nat
  len : Nat
  plain : Bool

/-- Bytes of a block. -/
def PBlock.Byte (l : PBlock) (x : Nat) : Prop := l.ptr ≤ x ∧ x < l.ptr + l.len

/-- Two blocks share no byte, and their pointers differ even if they are empty. -/
def PBlock.Disj (l l' : PBlock) : Prop := l.ptr ≠ l'.ptr ∧ ∀ x, ¬ (l.Byte x ∧ l'.Byte x)

/-- Calls. `t` is the calling thread, `h` the boundary given by the network hook (0 or 1 if there is none). `spawn a z pb`
is the first call of a new thread, whose chain structure is placed in the `z` bytes at `a`. `write` is a store of the
client itself. -/
inductive POp where
  | spawn (a z pb : Nat)
  | malloc (t h n : Nat)
  | memalign (t b n : Nat)
  | calloc (t h n k : Nat)
  | free (t p : Nat)
  | realloc (t p h n : Nat)
  | write (a : Nat) (v : UInt8)

/-- Execution of one call by the model of the C code. -/
def pexec (C : Config) (s : PS) : POp → Outcome (PS × Nat)
  | .spawn a z pb => do
    let s ← posixSpawn s a z pb
    return (s, 0)
  | .malloc t h n => posixMalloc C h s t n
  | .memalign t b n => posixMemalign C s t b n
  | .calloc t h n k => posixCalloc C h s t n k
  | .free t p => do
    let s ← posixFree C s t p
    return (s, 0)
  | .realloc t p h n => posixRealloc C h s t p n
  | .write a v => .ok (s.setMem (fun x => if x = a then v else s.w.mem x), 0)

/-- The live blocks, and those that were freed by a thread that does not own them and that the owner has not taken back. -/
structure PSpec where
  live : List PBlock
  pend : List PBlock

/-- Thread `t` takes back the blocks freed by others. -/
def PSpec.drain (G : PSpec) (t : Nat) : PSpec := { G with pend := G.pend.filter (fun l => decide (l.owner ≠ t)) }

/-- Thread `t` gets a block. -/
def PSpec.add (G : PSpec) (t r n : Nat) (plain : Bool) : PSpec :=
  if r = 0 then G else { G with live := ⟨t, r, n, plain⟩ :: G.live }

/-- Thread `t` frees the block at `p`. -/
def PSpec.del (G : PSpec) (t p : Nat) : PSpec where
  live := G.live.filter (fun l => decide (l.ptr ≠ p))
  pend := G.live.filter (fun l => decide (l.ptr = p ∧ l.owner ≠ t)) ++ G.pend

/-- The block at `p` belongs to thread `t`. -/
def PSpec.mine (G : PSpec) (t p : Nat) : Bool := G.live.any (fun l => decide (l.ptr = p ∧ l.owner = t))

/-- Blocks after a call that returned `r`. Malloc, calloc, memalign and free first take back the blocks freed by the other
threads; so does a realloc that goes through them. -/
def PSpec.after (G : PSpec) (op : POp) (r : Nat) : PSpec :=
  match op with
  | .spawn _ _ _ => G
  | .malloc t h n => (G.drain t).add t r n (decide (h ≤ 1))
  | .memalign t b n => (G.drain t).add t r n (decide (b ≤ 1))
  | .calloc t h n k => (G.drain t).add t r (n * k) (decide (h ≤ 1))
  | .free t p => (G.drain t).del t p
  | .realloc t p h n =>
    if p = 0 then (G.drain t).add t r n (decide (h ≤ 1))
    else if n = 0 then (G.drain t).del t p
    else if G.mine t p then
      (if r = p then { G with live := G.live.map (fun l => if l.ptr = p then { l with len := n } else l) }
      else (G.del t p).add t r n (decide (h ≤ 1)))
    else ((G.drain t).del t p).add t r n (decide (h ≤ 1))
  | .write _ _ => G

/-- Size of a request with its boundary; an empty request is one of 1 byte. -/
def reqSize (b n : Nat) : Nat := (if n = 0 then 1 else n) + (if 1 < b then b else 0)

/-- Sizes that are computed without wrapping around and, from the huge limit of 1 MB (with header) on, that leave 64 bytes
in the blocs of 2 MB in which the size plus 48 is rounded up (see `C43_refuted`). -/
def PSize (N : Nat) : Prop :=
  N + 48 + MB2 ≤ W64 ∧ (N + 16 ≤ 1048576 ∨ N + 64 ≤ (N + 48 + (MB2 - 1)) / MB2 * MB2)

/-- What the threads may call. -/
def PValid (s : PS) (G : PSpec) : POp → Prop
  | .spawn a z pb => a ≤ pb ∧ pb + 1536 ≤ a + z ∧ a + z < W64 ∧ ∀ x, a ≤ x → x < a + z → s.w.src.os.used x = false
  | .malloc t h n => t < s.chs.length ∧ GoodBound h ∧ PSize (reqSize h n)
  | .memalign t b n => t < s.chs.length ∧ GoodBound b ∧ PSize (reqSize b n)
  | .calloc t h n k => t < s.chs.length ∧ GoodBound h ∧ n * k < W64 ∧ PSize (reqSize h (n * k))
  | .free t p => t < s.chs.length ∧ (p = 0 ∨ ∃ l ∈ G.live, l.ptr = p)
  | .realloc t p h n => t < s.chs.length ∧ GoodBound h ∧ PSize (reqSize h n) ∧
      (p = 0 ∨ ∃ l ∈ G.live, l.ptr = p ∧ (n = 0 ∨ l.owner ≠ t ∨ l.plain = true ∨ n ≤ l.len))
  | .write a _ => ∃ l ∈ G.live, l.Byte a

/-- Reachable states of the process, for the calls that satisfy `X`: at the start no thread has a chain, nothing is
registered in the regions, the cache of the source is empty and the first 2 MB of the address space are in use. -/
inductive PReach (C : Config) (X : POp → Prop) : PS → PSpec → Prop
  | init {m : Mem} {R : Regions} {o : Os} : R.OK → (∀ k, R.ent k = 0) → (∀ x, x ≤ MB2 → o.used x = true) →
      PReach C X ⟨⟨m, R, Light.init o⟩, []⟩ ⟨[], []⟩
  | step {s s' : PS} {G : PSpec} {op : POp} {r : Nat} : PReach C X s G → PValid s G op → X op →
      pexec C s op = .ok (s', r) → PReach C X s' (G.after op r)

/-- The requested sizes, with header, are not within 48 bytes below the huge limit of 1 MB. -/
def CleanSize (N : Nat) : Prop := N ≤ 1048528 ∨ 1048560 < N

/-- Calls without request of a size just below the huge limit. -/
def CleanOp : POp → Prop
  | .malloc _ h n => CleanSize (reqSize h n)
  | .memalign _ b n => CleanSize (reqSize b n)
  | .calloc _ h n k => CleanSize (reqSize h (n * k))
  | .realloc _ _ h n => CleanSize (reqSize h n)
  | _ => True

/-- The kernel has memory for a request: it would map the size plus 2 MB and 80 bytes of headers. -/
def HasMem (s : PS) (N : Nat) : Prop := s.w.src.os.Fresh (s.w.src.os.ans s.w.src.os.k) (N + 80 + MB2)

/-- The kernel has memory for a call. -/
def OpMem (s : PS) : POp → Prop
  | .malloc _ h n => HasMem s (reqSize h n)
  | .memalign _ b n => HasMem s (reqSize b n)
  | .calloc _ h n k => HasMem s (reqSize h (n * k))
  | .realloc _ _ h n => HasMem s (reqSize h n)
  | _ => True

end MpcAlloc
