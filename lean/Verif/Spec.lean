import Verif.Chain

/-
Client side specification of a chain over user supplied buffers: calls, live blocks, what a client may
do. Nothing here mentions headers, free lists or any other internal of the allocator.
-/

namespace MpcAlloc

variable {σ : Type}

/-- A block returned to the client and not given back: pointer, requested size, and whether it was
obtained without alignment request. -/
structure Block where
  ptr : Nat
  len : Nat
  plain : Bool

/-- Bytes of a block. -/
def Block.Byte (l : Block) (x : Nat) : Prop := l.ptr ≤ x ∧ x < l.ptr + l.len

/-- Two blocks share no byte. -/
def Block.Disj (l l' : Block) : Prop := ∀ x, ¬ (l.Byte x ∧ l'.Byte x)

/-- Calls of a client. `alloc b n` is `sctk_alloc_chain_alloc_align(chain, b, n)`; `sctk_alloc_chain_alloc`
is the case where `b` is what the network hook returns. `realloc p b n` is
`sctk_alloc_chain_realloc(chain, p, n)`, `b` being again the value of the hook. `write a v` is a store of
the client itself. -/
inductive Op where
  | alloc (b n : Nat)
  | free (p : Nat)
  | realloc (p b n : Nat)
  | refill (buf sz : Nat)
  | write (a : Nat) (v : UInt8)

/-- Execution of one call by the model of the C code: new state and returned pointer (0 if none). -/
def exec (S : Source σ) (C : Config) (s : CS σ) : Op → Outcome (CS σ × Nat)
  | .alloc b n => allocAlign S s b n
  | .free p => do
    let s ← chainFree S C s p
    return (s, 0)
  | .realloc p b n => chainRealloc S C b s p n
  | .refill buf sz => do
    let s ← userRefill s buf sz
    return (s, 0)
  | .write a v => .ok (s.setMem (fun x => if x = a then v else s.w.mem x), 0)

/-- Live blocks after a call that returned `r`. (A failed `realloc` releases the old block in the code as
written, see C15.) -/
def account (L : List Block) (op : Op) (r : Nat) : List Block :=
  match op with
  | .alloc b n => if r = 0 then L else ⟨r, n, decide (b ≤ 1)⟩ :: L
  | .free p => L.filter (fun l => decide (l.ptr ≠ p))
  | .realloc p b n =>
    if p = 0 then (if r = 0 then L else ⟨r, n, decide (b ≤ 1)⟩ :: L)
    else if r = 0 then L.filter (fun l => decide (l.ptr ≠ p))
    else if r = p then L.map (fun l => if l.ptr = p then { l with len := n } else l)
    else ⟨r, n, decide (b ≤ 1)⟩ :: L.filter (fun l => decide (l.ptr ≠ p))
  | .refill _ _ => L
  | .write _ _ => L

/-- Buffers given to the chain after a call. -/
def accountBufs (B : List (Nat × Nat)) : Op → List (Nat × Nat)
  | .refill buf sz => B ++ [(buf, sz)]
  | _ => B

/-- No boundary (0 or 1), or a power of two. -/
def GoodBound (b : Nat) : Prop := b ≤ 1 ∨ ∃ k, b = 2 ^ k

/-- Sizes that the chain computes without error: with the 16 bytes of header and the boundary the request
stays below 2^63, or below 2^64 when every buffer is smaller than 2 MB + 48 bytes. -/
def SizeOK (B : List (Nat × Nat)) (b n : Nat) : Prop :=
  n + (if 1 < b then b else 0) + 16 < W63 ∨
    (n + (if 1 < b then b else 0) + 16 < W64 ∧ ∀ y ∈ B, y.2 < MB2 + 48)

/-- What a client may call. `pb` is the address of the list heads in the chain structure (1536 bytes). -/
def ValidOp (pb : Nat) (L : List Block) (B : List (Nat × Nat)) : Op → Prop
  | .alloc b n => GoodBound b ∧ SizeOK B b n
  | .free p => p = 0 ∨ ∃ l ∈ L, l.ptr = p
  | .realloc p b n => GoodBound b ∧ SizeOK B b n ∧
      (p = 0 ∨ ∃ l ∈ L, l.ptr = p ∧ (n = 0 ∨ l.plain = true ∨ n ≤ l.len))
  | .refill buf sz => 0 < buf ∧ 16 ∣ buf ∧ 16 ∣ sz ∧ 96 ≤ sz ∧ buf + sz < W64 ∧ sz < W56 ∧
      (buf + sz ≤ pb ∨ pb + 1536 ≤ buf) ∧ ∀ x ∈ B, x.1 + x.2 ≤ buf ∨ buf + sz ≤ x.1
  | .write a _ => ∃ l ∈ L, l.Byte a

/-- Condition on the region table for a refill of a chain that registers its memory: the 2 MB pages of
the buffer are below 2^48 and not used by another registered bloc. -/
def RegOK (s : CS σ) : Op → Prop
  | .refill b sz => s.c.noRegion = false →
      b + sz ≤ 281474976710656 ∧
      ∀ k, b / MB2 ≤ k → k < b / MB2 + (sz + MB2 - 1) / MB2 → s.w.regs.ent k = 0
  | _ => True

/-- Reachable states of a chain over user buffers, with its live blocks and its buffers: the chain is
initialised without memory, then any valid calls are run. -/
inductive Reach (S : Source σ) (C : Config) (pb : Nat) : CS σ → List Block → List (Nat × Nat) → Prop
  | init {w : World σ} {addr : Nat} {ts nm nr : Bool} {s : CS σ} : 0 < pb → pb + 1536 < W64 → w.regs.OK →
      userInit w addr pb 0 0 ts nm nr = .ok s → Reach S C pb s [] []
  | step {s s' : CS σ} {L : List Block} {B : List (Nat × Nat)} {op : Op} {r : Nat} : Reach S C pb s L B →
      ValidOp pb L B op → RegOK s op → exec S C s op = .ok (s', r) →
      Reach S C pb s' (account L op r) (accountBufs B op)

/-- Valid run of a list of calls, with the returned pointers. -/
inductive Run (S : Source σ) (C : Config) (pb : Nat) :
    CS σ → List Block → List (Nat × Nat) → List Op → List Nat → CS σ → List Block → List (Nat × Nat) → Prop
  | nil {s : CS σ} {L : List Block} {B : List (Nat × Nat)} : Run S C pb s L B [] [] s L B
  | cons {s s1 s2 : CS σ} {L L2 : List Block} {B B2 : List (Nat × Nat)} {op : Op} {ops : List Op} {r : Nat}
      {rs : List Nat} : ValidOp pb L B op → RegOK s op → exec S C s op = .ok (s1, r) →
      Run S C pb s1 (account L op r) (accountBufs B op) ops rs s2 L2 B2 →
      Run S C pb s L B (op :: ops) (r :: rs) s2 L2 B2

/-- Two calls that differ at most in the value stored by the client. -/
inductive SameCall : Op → Op → Prop
  | refl (op : Op) : SameCall op op
  | write (a : Nat) (v v' : UInt8) : SameCall (.write a v) (.write a v')

/-- Byte of one of the buffers. -/
def InBufs (B : List (Nat × Nat)) (x : Nat) : Prop := ∃ y ∈ B, y.1 ≤ x ∧ x < y.1 + y.2

/-- Byte of the chain structure that holds the list heads (48 heads of 32 bytes). -/
def InHeads (pb x : Nat) : Prop := pb ≤ x ∧ x < pb + 1536

/-- Two states of the same chain whose memories agree on the list heads and on the bytes of the buffers
that belong to no live block. Memory outside of the chain and the data of the blocks are arbitrary. -/
def SameBut (pb : Nat) (L : List Block) (B : List (Nat × Nat)) (s t : CS σ) : Prop :=
  t.c = s.c ∧ t.w.regs = s.w.regs ∧
    ∀ x, InHeads pb x ∨ (InBufs B x ∧ ∀ l ∈ L, ¬ l.Byte x) → t.w.mem x = s.w.mem x

/-- Chunks found by walking the headers of a buffer from address `a` to address `e`: address, size field
(bytes 0 to 6), and whether the state bit (bit 2 of byte 15) is clear, that is the chunk is free. -/
inductive Chunks (m : Mem) : Nat → Nat → List (Nat × Nat × Bool) → Prop
  | nil (a : Nat) : Chunks m a a []
  | cons {a e : Nat} {l : List (Nat × Nat × Bool)} : a < e →
      Chunks m (a + readLE m a 7) e l →
      Chunks m a e ((a, readLE m a 7, decide ((m (a + 15)).toNat / 4 % 2 = 0)) :: l)

/-- Chunks of the buffer of `sz` bytes at `b`: between the bloc header (32 bytes) and the end mark (16
bytes). -/
def BufChunks (m : Mem) (b sz : Nat) (l : List (Nat × Nat × Bool)) : Prop :=
  Chunks m (b + 32) (b + sz - 16) l

end MpcAlloc
