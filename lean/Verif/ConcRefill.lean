import Verif.Concurrent

/-
Refill of a chain (`sctk_alloc_chain_user_refill`, sctk_allocator.c 1046-1078) while other threads allocate and free
(Concurrent.lean). The function takes no lock: its accesses to the free list are steps of their own here.

One step each: the writes in the new buffer together with the registration of the bloc (lines 1063-1064 and
sctk_alloc_free_list_insert up to line 518), then every load and store of the insertion in the list (lines 519-521),
the status of the list (529), and the update of the fields of the chain (1069-1076). Accesses are sequentially
consistent.
-/

namespace MpcAlloc
namespace RF

variable {σ : Type}

/-- Where a thread is in `sctk_alloc_chain_user_refill(chain, b, sz)`; `f` is the free chunk that covers the buffer and `i`
the rank of its free list.
* `out`: not in a refill;
* `prep`: at line 1063;
* `next`: at `fchunk->next = flist->next` (sctk_allocator.c 519);
* `load`: at the load of `flist->next` in `flist->next->prev = fchunk` (520);
* `store`: at the store of the same line, `r` being the value loaded;
* `link`: at `flist->next = fchunk` (521);
* `mark`: at `sctk_alloc_free_list_mark_non_empty` (529);
* `last`: at line 1069. -/
inductive FPc where
  | out
  | prep (b sz : Nat)
  | next (b sz f i : Nat)
  | load (b sz f i : Nat)
  | store (b sz f i r : Nat)
  | link (b sz f i : Nat)
  | mark (b sz i : Nat)
  | last (b sz : Nat)

/-- The threads of Concurrent.lean, the position of those that are in a refill, and (ghost) the buffers given to the
chain so far. -/
structure FS (σ : Type) where
  k : KS σ
  pc : Nat → FPc
  bufs : List (Nat × Nat)

/-- What a thread that is in no call starts. -/
inductive FAct where
  | plain (a : KAct)
  | refill (b sz : Nat)

/-- Thread `t` of the state with `k` is now at `p`. -/
def FS.goto (f : FS σ) (k : KS σ) (t : Nat) (p : FPc) : FS σ :=
  { f with k := k, pc := fun u => if u = t then p else f.pc u }

/-- Replace the memory. -/
def setM (k : KS σ) (m : Mem) : KS σ := { k with s := k.s.setMem m }

/-- Lines 1063-1064, then `sctk_alloc_free_list_insert` 487-518: the bloc is set up and registered,
the list is chosen, the chunk is marked as free and its `prev` is the head of the list. The chunk and the rank of the
list are returned. -/
def prepare (s : CS σ) (b sz : Nat) : Outcome (CS σ × Nat × Nat) := do
  let s := s.setMem (setupMacroBloc s.w.mem b sz)
  let (s, v) ← prepareBloc s b
  let i ← insertIdx s.c.pool.sizes s.c.pool.nb s.c.pool.analytic (hSize s.w.mem (vLarge v))
  if i < 0 ∨ 48 ≤ i then .ub else
  let m := setState s.w.mem (vLarge v + 15) SFREE
  return (s.setMem (setPrev m (vLarge v) (s.c.pool.head i.toNat)), vLarge v, i.toNat)

/-- Lines 1069-1076: `base_addr`, `end_addr` and `cnt_macro_blocs`. -/
def finish (s : CS σ) (b sz : Nat) : CS σ :=
  let c := if s.c.base = 0 then { s.c with base := b, end_ := add64 b sz } else s.c
  { s with c := { c with cnt := c.cnt + 1 } }

/-- One step of thread `t`. The call is entered in the log when it returns. -/
def fstep (S : Source σ) (C : Config) (f : FS σ) (t : Nat) (a : FAct) : Outcome (FS σ) :=
  match f.pc t with
  | .out =>
    match f.k.pc t, a with
    | .idle, .refill b sz =>
      if b = 0 ∧ sz ≠ 0 then .abort
      else if sz ≠ 0 ∧ sz ≤ 80 then .abort
      else .ok (f.goto f.k t (if b ≠ 0 ∧ sz > 0 then .prep b sz else .last b sz))
    | _, .plain a => kstep S C f.k t a >>= fun k => .ok { f with k := k }
    | _, .refill _ _ => kstep S C f.k t (.free 0) >>= fun k => .ok { f with k := k }
  | .prep b sz =>
    prepare f.k.s b sz >>= fun x => .ok (f.goto { f.k with s := x.1 } t (.next b sz x.2.1 x.2.2))
  | .next b sz c i =>
    .ok (f.goto (setM f.k (setNext f.k.s.w.mem c (getNext f.k.s.w.mem (f.k.s.c.pool.head i)))) t (.load b sz c i))
  | .load b sz c i => .ok (f.goto f.k t (.store b sz c i (getNext f.k.s.w.mem (f.k.s.c.pool.head i))))
  | .store b sz c i r =>
    if r = 0 then .ub else .ok (f.goto (setM f.k (setPrev f.k.s.w.mem r c)) t (.link b sz c i))
  | .link b sz c i => .ok (f.goto (setM f.k (setNext f.k.s.w.mem (f.k.s.c.pool.head i) c)) t (.mark b sz i))
  | .mark b sz i =>
    .ok (f.goto { f.k with s := { f.k.s with c := { f.k.s.c with status := setStatus f.k.s.c.status i true } } } t (.last b sz))
  | .last b sz =>
    .ok { f.goto (({ f.k with s := finish f.k.s b sz } : KS σ).now (.refill b sz)) t .out with bufs := f.bufs ++ [(b, sz)] }

/-- Thread `t` is in no call. -/
def FS.Idle (f : FS σ) (t : Nat) : Prop := f.pc t = .out ∧ f.k.pc t = .idle

/-- Buffers that the chain has got or is getting. -/
def FS.Claimed (f : FS σ) (y : Nat × Nat) : Prop :=
  y ∈ f.bufs ∨ ∃ t, f.pc t = .prep y.1 y.2 ∨ (∃ c i, f.pc t = .next y.1 y.2 c i) ∨ (∃ c i, f.pc t = .load y.1 y.2 c i) ∨
    (∃ c i r, f.pc t = .store y.1 y.2 c i r) ∨ (∃ c i, f.pc t = .link y.1 y.2 c i) ∨ (∃ i, f.pc t = .mark y.1 y.2 i) ∨
    f.pc t = .last y.1 y.2

/-- What a thread that is in no call may start. Sizes are below 2^63 with header and boundary (`SizeOK` without the case of
small buffers: a buffer of any size may come at any time). A buffer is as in `ValidOp`, disjoint from those the chain
has or is getting; its 2 MB pages are as in `RegOK`. -/
def FValid (pb : Nat) (f : FS σ) : FAct → Prop
  | .plain (.alloc b n) => GoodBound b ∧ n + (if 1 < b then b else 0) + 16 < W63
  | .plain (.free p) => p = 0 ∨ ∃ l ∈ f.k.live, l.ptr = p
  | .plain (.write a _) => ∃ l ∈ f.k.live, l.Byte a
  | .refill b sz => ValidOp pb [] [] (.refill b sz) ∧ (∀ y, f.Claimed y → y.1 + y.2 ≤ b ∨ b + sz ≤ y.1) ∧
      RegOK f.k.s (.refill b sz)

/-- The state `s` with live blocks `L` and buffers `B`, no thread being in a call. -/
def FS.start (s : CS σ) (L : List Block) (B : List (Nat × Nat)) : FS σ :=
  ⟨⟨s, fun _ => .idle, L, [], fun _ => none, fun _ => none⟩, fun _ => .out, B⟩

/-- The states that the threads reach in any order of steps. -/
inductive Reach (S : Source σ) (C : Config) (pb : Nat) (f0 : FS σ) : FS σ → Prop
  | init : Reach S C pb f0 f0
  | step {f f' : FS σ} {t : Nat} {a : FAct} : Reach S C pb f0 f → (f.Idle t → FValid pb f a) →
      fstep S C f t a = .ok f' → Reach S C pb f0 f'

/-- Steps of thread `t` alone, at least one, until it is in no refill. -/
inductive Alone (S : Source σ) (C : Config) (t : Nat) (a : FAct) : FS σ → FS σ → Prop
  | last {f f' : FS σ} : fstep S C f t a = .ok f' → f'.pc t = .out → Alone S C t a f f'
  | more {f f' f'' : FS σ} : fstep S C f t a = .ok f' → f'.pc t ≠ .out → Alone S C t a f' f'' → Alone S C t a f f''

/-- The states reached when the client sees to it that every refill starts while no thread has the lock and goes to its end
before any other thread moves. (Other threads may be in the middle of a call: waiting for the lock, reading the header of
the block they free, or padding the block they return.) -/
inductive Guarded (S : Source σ) (C : Config) (pb : Nat) (f0 : FS σ) : FS σ → Prop
  | init : Guarded S C pb f0 f0
  | step {f f' : FS σ} {t : Nat} {a : KAct} : Guarded S C pb f0 f → (f.Idle t → FValid pb f (.plain a)) →
      fstep S C f t (.plain a) = .ok f' → Guarded S C pb f0 f'
  | refill {f f' : FS σ} {t b sz : Nat} : Guarded S C pb f0 f → f.Idle t → FValid pb f (.refill b sz) →
      f.k.s.c.lock = false → Alone S C t (.refill b sz) f f' → Guarded S C pb f0 f'

end RF
end MpcAlloc
