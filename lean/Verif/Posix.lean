import Verif.LightSource

/-
POSIX level of the allocator (/repo/src/sctk_alloc_posix.c, sctk_alloc_posix_export.c): one chain per thread, all of them
fed by the light memory source. Definitions only. Calls are taken one at a time. Not modelled: NUMA, the egg chain (the
chain from which the structures of the other chains are allocated: their addresses are given here), user hooks.
-/

namespace MpcAlloc

/-- `sctk_alloc_posix_get_size`, sctk_alloc_posix.c 748-759. A pointer without header gives the NULL chunk,
whose header is then read: undefined behaviour. -/
def posixGetSize (m : Mem) (ptr : Nat) : Outcome Nat :=
  if ptr = 0 then .ok 0 else do
  let v ← getChunkUnpadded m ptr
  if v = 0 then .ub
  else return add64 (sub64 (getUsableSize m v) (sub64 ptr v)) 1

/-- State of the process: what is shared, and the chains of the threads (thread `t` has the chain of index `t`: the
variable `sctk_current_alloc_chain` of the thread, sctk_alloc_posix.c 60-130). -/
structure PS where
  w : World Light
  chs : List Chain

/-- The chain of thread `t`. -/
def PS.loc (s : PS) (t : Nat) : Outcome (CS Light) :=
  match s.chs[t]? with
  | some c => .ok ⟨s.w, c⟩
  | none => .ub

/-- Store of a chain. -/
def PS.put (s : PS) (t : Nat) (u : CS Light) : PS := ⟨u.w, s.chs.set t u.c⟩

/-- The chain of which the structure is at address `a`. -/
def PS.chainAt (s : PS) (a : Nat) : Outcome Nat :=
  match s.chs.findIdx? (fun c => decide (c.addr = a)) with
  | some i => .ok i
  | none => .ub

/-- Some other part of the process gets the `z` bytes at `a`. -/
def PS.reserve (s : PS) (a z : Nat) : PS :=
  { s with w := { s.w with src := { s.w.src with os := { s.w.src.os with
    used := fun x => if a ≤ x ∧ x < a + z then true else s.w.src.os.used x } } } }

/-- `sctk_alloc_posix_create_new_tls_chain` and `sctk_alloc_posix_setup_tls_chain`, sctk_alloc_posix.c 483-546: a chain for
a new thread. Simplification: the `z` bytes of the structure, which the code takes from the egg chain, are any unused
memory at `a`; `pb` is the address of the list heads in the structure. -/
def posixSpawn (s : PS) (a z pb : Nat) : Outcome PS := do
  let s := s.reserve a z
  let u ← userInit s.w a pb 0 0 false false false
  return ⟨u.w, s.chs ++ [{ u.c with hasSrc := true }]⟩

/-- `sctk_memalign`, sctk_alloc_posix.c 614-649. -/
def posixMemalign (C : Config) (s : PS) (t b n : Nat) : Outcome (PS × Nat) := do
  let u ← s.loc t
  let u ← purgeRfq (lightSource C) C u
  let (u, r) ← allocAlign (lightSource C) u b (if n = 0 then 1 else n)
  return (s.put t u, r)

/-- `sctk_malloc`, sctk_alloc_posix.c 571-611. `hook` is the boundary given by the network hook (see `chainAlloc`). -/
def posixMalloc (C : Config) (hook : Nat) (s : PS) (t n : Nat) : Outcome (PS × Nat) := do
  let u ← s.loc t
  let u ← purgeRfq (lightSource C) C u
  let (u, r) ← chainAlloc (lightSource C) hook u (if n = 0 then 1 else n)
  return (s.put t u, r)

/-- `sctk_free`, sctk_alloc_posix.c 665-739. -/
def posixFree (C : Config) (s : PS) (t p : Nat) : Outcome PS := do
  let u ← s.loc t
  let u ← purgeRfq (lightSource C) C u
  let s := s.put t u
  if p = 0 then return s else
  let (R, b) ← regionGetMacroBloc s.w.mem s.w.regs p
  let s := { s with w := { s.w with regs := R } }
  if b = 0 then (if C.strict then .abort else return s) else
  let a := readLE s.w.mem (b + 16) 8
  if a = 0 then .abort else
  let i ← s.chainAt a
  let v ← s.loc i
  let v ← (if v.c.threadSafe ∨ a = u.c.addr then chainFree (lightSource C) C v p else rfqRegister v p)
  return s.put i v

/-- Memory of the process after a store. -/
def PS.setMem (s : PS) (m : Mem) : PS := { s with w := { s.w with mem := m } }

/-- `sctk_realloc_inter_chain`, sctk_alloc_posix.c 863-891. -/
def posixReallocInter (C : Config) (hook : Nat) (s : PS) (t p n : Nat) : Outcome (PS × Nat) := do
  let (s, r) ← (if n ≠ 0 then posixMalloc C hook s t n else pure (s, 0))
  let s ← (if r ≠ 0 ∧ p ≠ 0 then do
      let g ← posixGetSize s.w.mem p
      let m ← memCopy s.w.mem r p (if n < g then n else g)
      pure (s.setMem m)
    else pure s)
  let s ← (if p ≠ 0 then posixFree C s t p else pure s)
  return (s, r)

/-- `sctk_realloc`, sctk_alloc_posix.c 792-860 (`HAVE_MREMAP` undefined). -/
def posixRealloc (C : Config) (hook : Nat) (s : PS) (t p n : Nat) : Outcome (PS × Nat) :=
  if p = 0 then posixMalloc C hook s t n
  else if n = 0 then do
    let s ← posixFree C s t p
    return (s, 0)
  else do
    let u ← s.loc t
    let (R, b) ← regionGetMacroBloc s.w.mem s.w.regs p
    let s := { s with w := { s.w with regs := R } }
    if b = 0 then .abort else
    let a := readLE s.w.mem (b + 16) 8
    if a = 0 then .abort else
    let i ← s.chainAt a
    let v ← s.loc i
    if a = u.c.addr ∨ v.c.threadSafe then do
      let (v, r) ← chainRealloc (lightSource C) C hook v p n
      return (s.put i v, r)
    else posixReallocInter C hook s t p n

/-- `memset(p, 0, n)`; undefined on NULL. -/
def memZero (m : Mem) (p n : Nat) : Outcome Mem :=
  if p = 0 then .ub else .ok (fun x => if p ≤ x ∧ x < p + n then 0 else m x)

/-- `sctk_calloc`, sctk_alloc_posix.c 561-568: the product is computed on 64 bits and the result of `sctk_malloc` is not
tested. -/
def posixCalloc (C : Config) (hook : Nat) (s : PS) (t n k : Nat) : Outcome (PS × Nat) := do
  let (s, r) ← posixMalloc C hook s t (n * k % W64)
  let m ← memZero s.w.mem r (n * k % W64)
  return (s.setMem m, r)

/-- `memalign`, sctk_alloc_posix_export.c 118-138. -/
def exportMemalign (C : Config) (s : PS) (t b n : Nat) : Outcome (PS × Nat) :=
  if isPowerOfTwo b then posixMemalign C s t b n else .ok (s, 0)

/-- `valloc`, sctk_alloc_posix_export.c 141-144. -/
def exportValloc (C : Config) (s : PS) (t n : Nat) : Outcome (PS × Nat) := exportMemalign C s t 4096 n

/-- `posix_memalign`, sctk_alloc_posix_export.c 98-115: error code (0, or `EINVAL` = 22) and what is stored in `*memptr`. -/
def exportPosixMemalign (C : Config) (s : PS) (t b n : Nat) : Outcome (PS × Nat × Option Nat) :=
  if b % 8 ≠ 0 ∧ isPowerOfTwo b then .ok (s, 22, none)
  else do
    let (s, r) ← posixMemalign C s t b n
    return (s, 0, some r)

/-- `sctk_posix_memalign`, sctk_alloc_posix.c 652-662: the test for `ENOMEM` is on `memptr`, which is not NULL. -/
def sctkPosixMemalign (C : Config) (s : PS) (t b n : Nat) : Outcome (PS × Nat × Option Nat) := do
  let (s, r) ← posixMemalign C s t b n
  return (s, 0, some r)

end MpcAlloc
