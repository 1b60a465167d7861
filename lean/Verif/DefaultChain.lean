import Verif.Egg

/-
Choice of the chain of a thread: `sctk_alloc_posix_set_default_chain` (mpcalloc.h 89) and the calls on the chain that is
current, which may be the chain made for the thread, the chain of another one, or the egg chain. Build without hwloc;
calls are taken one at a time. Not modelled: chains that the client initialises itself, the end of a thread (which also
switches to the egg chain, sctk_alloc_posix.c 991-1009; the marking of its chain is in Ends.lean).
-/

namespace MpcAlloc

/-- Value of the variable `sctk_current_alloc_chain` of a thread (sctk_alloc_posix.c 60-75): NULL, the egg chain, or the
chain of index `i`. -/
inductive Cur where
  | none
  | egg
  | ch (i : Nat)
deriving DecidableEq

/-- The process, and the variable of each thread. -/
structure SwState where
  e : ES
  cur : Nat → Cur

/-- `sctk_alloc_posix_set_default_chain`, sctk_alloc_posix.c 182-194, with `sctk_set_tls_chain`, 124-131, and
`sctk_get_tls_chain`, 137-144: thread `u` is switched to `c`; the old chain is returned. -/
def setDefault (s : SwState) (u : Nat) (c : Cur) : SwState × Cur :=
  ({ s with cur := fun v => if v = u then c else s.cur v }, s.cur u)

/-- `sctk_alloc_posix_plug_on_egg_allocator`, sctk_alloc_posix.c 279-282. -/
def plugOnEgg (s : SwState) (u : Nat) : SwState := (setDefault s u .egg).1

/-- `sctk_get_current_alloc_chain`, sctk_alloc_posix.c 894-897. -/
def getCurrent (s : SwState) (u : Nat) : Cur := s.cur u

/-- `sctk_alloc_posix_setup_tls_chain`, sctk_alloc_posix.c 523-546: the thread is on the egg chain while its own is made. The
`h` is the value of the network hook for the structure (see `chainAlloc`). -/
def setupTls (C : Config) (h : Nat) (s : SwState) (u : Nat) : Outcome (SwState × Cur) := do
  let s := (setDefault s u .egg).1
  let e ← eggSpawn C h s.e
  let c := Cur.ch s.e.p.chs.length
  let s := (setDefault { s with e := e } u c).1
  return (s, c)

/-- First lines of the calls (sctk_alloc_posix.c 578-583, 620-625, 676-683, 807-810) and `__build_tls_chain`, 549-557: the
chain of the thread, made now if there is none. -/
def localChain (C : Config) (h : Nat) (s : SwState) (u : Nat) : Outcome (SwState × Cur) :=
  match s.cur u with
  | .none => setupTls C h s u
  | c => .ok (s, c)

/-- A chain of the process. -/
def ES.loc (e : ES) : Cur → Outcome (CS Light)
  | .none => .ub
  | .egg => .ok ⟨e.p.w, e.egg⟩
  | .ch i => e.p.loc i

/-- Store of a chain. -/
def ES.put (e : ES) : Cur → CS Light → ES
  | .none, _ => e
  | .egg, u => ⟨⟨u.w, e.p.chs⟩, u.c⟩
  | .ch i, u => ⟨e.p.put i u, e.egg⟩

/-- The chain of which the structure is at address `a`. -/
def ES.chainAt (e : ES) (a : Nat) : Outcome Cur :=
  if a = e.egg.addr then .ok .egg else do
  let i ← e.p.chainAt a
  return .ch i

/-- Memory of the process after a store. -/
def ES.setMem (e : ES) (m : Mem) : ES := ⟨e.p.setMem m, e.egg⟩

/-- `sctk_memalign`, sctk_alloc_posix.c 614-649, for a thread whose chain is `k`. -/
def curMemalign (C : Config) (e : ES) (k : Cur) (b n : Nat) : Outcome (ES × Nat) := do
  let u ← e.loc k
  let u ← purgeRfq (lightSource C) C u
  let (u, r) ← allocAlign (lightSource C) u b (if n = 0 then 1 else n)
  return (e.put k u, r)

/-- `sctk_malloc`, sctk_alloc_posix.c 571-611. `hook` is the boundary given by the network hook (see `chainAlloc`). -/
def curMalloc (C : Config) (hook : Nat) (e : ES) (k : Cur) (n : Nat) : Outcome (ES × Nat) := do
  let u ← e.loc k
  let u ← purgeRfq (lightSource C) C u
  let (u, r) ← chainAlloc (lightSource C) hook u (if n = 0 then 1 else n)
  return (e.put k u, r)

/-- `sctk_free`, sctk_alloc_posix.c 691-738: the part after the purge; `la` is the address of the chain of the thread. -/
def curRelease (C : Config) (e : ES) (la p : Nat) : Outcome ES := do
  let (R, b) ← regionGetMacroBloc e.p.w.mem e.p.w.regs p
  let e := { e with p := { e.p with w := { e.p.w with regs := R } } }
  if b = 0 then (if C.strict then .abort else return e) else
  let a := readLE e.p.w.mem (b + 16) 8
  if a = 0 then .abort else
  let j ← e.chainAt a
  let v ← e.loc j
  let v ← (if v.c.threadSafe ∨ a = la then chainFree (lightSource C) C v p else rfqRegister v p)
  return e.put j v

/-- `sctk_free`, sctk_alloc_posix.c 665-739. -/
def curFree (C : Config) (e : ES) (k : Cur) (p : Nat) : Outcome ES := do
  let u ← e.loc k
  let u ← purgeRfq (lightSource C) C u
  if p = 0 then return e.put k u else
  curRelease C (e.put k u) u.c.addr p

/-- `sctk_realloc_inter_chain`, sctk_alloc_posix.c 863-891. -/
def curReallocInter (C : Config) (hook : Nat) (e : ES) (k : Cur) (p n : Nat) : Outcome (ES × Nat) := do
  let (e, r) ← (if n ≠ 0 then curMalloc C hook e k n else pure (e, 0))
  let e ← (if r ≠ 0 ∧ p ≠ 0 then do
      let g ← posixGetSize e.p.w.mem p
      let m ← memCopy e.p.w.mem r p (if n < g then n else g)
      pure (e.setMem m)
    else pure e)
  let e ← (if p ≠ 0 then curFree C e k p else pure e)
  return (e, r)

/-- `sctk_realloc`, sctk_alloc_posix.c 792-860 (`HAVE_MREMAP` undefined). -/
def curRealloc (C : Config) (hook : Nat) (e : ES) (k : Cur) (p n : Nat) : Outcome (ES × Nat) :=
  if p = 0 then curMalloc C hook e k n
  else if n = 0 then do
    let e ← curFree C e k p
    return (e, 0)
  else do
    let u ← e.loc k
    let (R, b) ← regionGetMacroBloc e.p.w.mem e.p.w.regs p
    let e := { e with p := { e.p with w := { e.p.w with regs := R } } }
    if b = 0 then .abort else
    let a := readLE e.p.w.mem (b + 16) 8
    if a = 0 then .abort else
    let j ← e.chainAt a
    let v ← e.loc j
    if a = u.c.addr ∨ v.c.threadSafe then do
      let (v, r) ← chainRealloc (lightSource C) C hook v p n
      return (e.put j v, r)
    else curReallocInter C hook e k p n

/-- `sctk_calloc`, sctk_alloc_posix.c 561-568: the product is computed on 64 bits and the result of `sctk_malloc` is not
tested. -/
def curCalloc (C : Config) (hook : Nat) (e : ES) (k : Cur) (n z : Nat) : Outcome (ES × Nat) := do
  let (e, r) ← curMalloc C hook e k (n * z % W64)
  let m ← memZero e.p.w.mem r (n * z % W64)
  return (e.setMem m, r)

/-- Allocation calls; `h` is the boundary given by the network hook (0 or 1 if there is none). -/
inductive SwCall where
  | malloc (h n : Nat)
  | memalign (b n : Nat)
  | calloc (h n z : Nat)
  | free (p : Nat)
  | realloc (p h n : Nat)

/-- A call of a thread whose chain is `k`. -/
def curExec (C : Config) (e : ES) (k : Cur) : SwCall → Outcome (ES × Nat)
  | .malloc h n => curMalloc C h e k n
  | .memalign b n => curMemalign C e k b n
  | .calloc h n z => curCalloc C h e k n z
  | .free p => do
    let e ← curFree C e k p
    return (e, 0)
  | .realloc p h n => curRealloc C h e k p n

/-- What happens: thread `u` is switched to a chain, thread `u` calls (`h0` is the value of the network hook for the
structure of its chain if it has to be made), or the client stores a byte. -/
inductive SwOp where
  | set (u : Nat) (c : Cur)
  | call (u h0 : Nat) (op : SwCall)
  | write (x : Nat) (v : UInt8)

/-- Execution by the model of the C code. -/
def swExec (C : Config) (s : SwState) : SwOp → Outcome (SwState × Nat)
  | .set u c => .ok ((setDefault s u c).1, 0)
  | .call u h0 op => do
    let (s, k) ← localChain C h0 s u
    let (e, r) ← curExec C s.e k op
    return ({ s with e := e }, r)
  | .write x v => .ok ({ s with e := s.e.setMem (fun y => if y = x then v else s.e.p.w.mem y) }, 0)

/-- The blocks of the client: those of the chains of the threads (`owner` is the index of the chain that gave the block, and
`pend` holds those that were freed through another chain and not taken back), and those given by the egg chain. -/
structure SwSpec where
  P : PSpec
  E : List Block

/-- Blocks freed through another chain are taken back when chain `k` is used. -/
def SwSpec.drain (G : SwSpec) : Cur → SwSpec
  | .ch t => { G with P := G.P.drain t }
  | _ => G

/-- A block of `n` bytes at `r` was obtained from chain `k`. -/
def SwSpec.add (G : SwSpec) (k : Cur) (r n : Nat) (plain : Bool) : SwSpec :=
  match k with
  | .ch t => { G with P := G.P.add t r n plain }
  | .egg => if r = 0 then G else { G with E := ⟨r, n, plain⟩ :: G.E }
  | .none => G

/-- The block at `p` is freed through chain `k`: a block of the egg chain, or of `k` itself, is released; a block of another
chain waits there. -/
def SwSpec.del (G : SwSpec) (k : Cur) (p : Nat) : SwSpec where
  P := ⟨G.P.live.filter (fun l => decide (l.ptr ≠ p)),
    G.P.live.filter (fun l => decide (l.ptr = p ∧ Cur.ch l.owner ≠ k)) ++ G.P.pend⟩
  E := G.E.filter (fun l => decide (l.ptr ≠ p))

/-- The block at `p` is one of chain `t`. -/
def SwSpec.isOf (G : SwSpec) (k : Cur) (p : Nat) : Bool :=
  match k with
  | .ch t => G.P.mine t p
  | .egg => G.E.any (fun l => decide (l.ptr = p))
  | .none => false

/-- Resize in place. -/
def SwSpec.resize (G : SwSpec) (p n : Nat) : SwSpec where
  P := { G.P with live := G.P.live.map (fun l => if l.ptr = p then { l with len := n } else l) }
  E := G.E.map (fun l => if l.ptr = p then { l with len := n } else l)

/-- Blocks after a call through chain `k` that returned `r`. A resize that is done by the chain of the block (chain `k`, or
the egg chain) stays on that chain; otherwise the block moves to chain `k`. -/
def SwSpec.after (G : SwSpec) (k : Cur) (op : SwCall) (r : Nat) : SwSpec :=
  match op with
  | .malloc h n => (G.drain k).add k r n (decide (h ≤ 1))
  | .memalign b n => (G.drain k).add k r n (decide (b ≤ 1))
  | .calloc h n z => (G.drain k).add k r (n * z) (decide (h ≤ 1))
  | .free p => (G.drain k).del k p
  | .realloc p h n =>
    if p = 0 then (G.drain k).add k r n (decide (h ≤ 1))
    else if n = 0 then (G.drain k).del k p
    else if G.isOf .egg p then
      (if r = p then G.resize p n else (G.del .egg p).add .egg r n (decide (h ≤ 1)))
    else if G.isOf k p then
      (if r = p then G.resize p n else (G.del k p).add k r n (decide (h ≤ 1)))
    else ((G.drain k).del k p).add k r n (decide (h ≤ 1))

/-- The chain used by the next call of thread `u`. -/
def SwState.next (s : SwState) (u : Nat) : Cur :=
  match s.cur u with
  | .none => .ch s.e.p.chs.length
  | c => c

/-- Blocks after a step that returned `r`. -/
def SwSpec.swAfter (G : SwSpec) (s : SwState) : SwOp → Nat → SwSpec
  | .set _ _, _ => G
  | .call u _ op, r => G.after (s.next u) op r
  | .write _ _, _ => G

/-- A live block of the client: pointer, size, whether it was obtained without boundary, and the chain that gave it. -/
inductive SwSpec.Live (G : SwSpec) : Nat → Nat → Bool → Cur → Prop
  | ch {l : PBlock} : l ∈ G.P.live → G.Live l.ptr l.len l.plain (.ch l.owner)
  | egg {l : Block} : l ∈ G.E → G.Live l.ptr l.len l.plain .egg

/-- Arguments of a call through chain `k`. A block with a boundary may be grown only through a chain that copies it (see
C14). -/
def SwCallValid (G : SwSpec) (k : Cur) : SwCall → Prop
  | .malloc h n => GoodBound h ∧ PSize (reqSize h n)
  | .memalign b n => GoodBound b ∧ PSize (reqSize b n)
  | .calloc h n z => GoodBound h ∧ n * z < W64 ∧ PSize (reqSize h (n * z))
  | .free p => p = 0 ∨ ∃ n pl o, G.Live p n pl o
  | .realloc p h n => GoodBound h ∧ PSize (reqSize h n) ∧
      (p = 0 ∨ ∃ z pl o, G.Live p z pl o ∧ (n = 0 ∨ (o ≠ .egg ∧ o ≠ k) ∨ pl = true ∨ n ≤ z))

/-- What the client may do: switch to NULL, to the egg chain or to the chain made for a thread; call; store in its
blocks. -/
def SwValid (s : SwState) (G : SwSpec) : SwOp → Prop
  | .set _ c => ∀ i, c = .ch i → i < s.e.p.chs.length
  | .call u h0 op => GoodBound h0 ∧ h0 + CHAIN_SIZE + 16 < W64 ∧ SwCallValid G (s.next u) op
  | .write x _ => ∃ p n pl o, G.Live p n pl o ∧ p ≤ x ∧ x < p + n

/-- The buffer of the egg chain has a free chunk for a request. -/
def EggHas (s : SwState) (b n : Nat) : Prop :=
  ∃ l x sz, BufChunks s.e.p.w.mem s.e.egg.base MB2 l ∧ (x, sz, true) ∈ l ∧ n + (if 1 < b then b else 0) + 16 ≤ sz

/-- Boundary and size of the request of a call. -/
def SwCall.req : SwCall → Option (Nat × Nat)
  | .malloc h n => some (h, n)
  | .memalign b n => some (b, n)
  | .calloc h n z => some (h, n * z)
  | .free _ => Option.none
  | .realloc _ h n => some (h, n)

/-- There is memory for a step: in the buffer of the egg chain for the structure of a new chain and for a calloc on the egg
chain, in the kernel for a request on the chain of a thread. -/
def SwMem (s : SwState) : SwOp → Prop
  | .call u h0 c => (s.cur u = .none → EggHas s h0 CHAIN_SIZE) ∧
      (∀ b n, c.req = some (b, n) → s.next u ≠ .egg → HasMem s.e.p (reqSize b n)) ∧
      ∀ h n z, c = .calloc h n z → s.next u = .egg → EggHas s h (if n * z = 0 then 1 else n * z)
  | _ => True

/-- Alignment of a pointer returned for a boundary. -/
def Aligned (b r : Nat) : Prop := (1 < b → b ∣ r) ∧ (b ≤ 1 → 16 ∣ r)

/-- What a step does, apart from the blocks of the client. -/
structure SwOk (s : SwState) (G : SwSpec) (op : SwOp) (s' : SwState) (r : Nat) : Prop where
  /-- the bytes that belong to a block before and after the step -/
  kept : (∀ x v, op ≠ .write x v) → ∀ p n pl o n' pl' o', G.Live p n pl o → (G.swAfter s op r).Live p n' pl' o' →
    ∀ x, p ≤ x → x < p + n → x < p + n' → s'.e.p.w.mem x = s.e.p.w.mem x
  /-- the block asked for -/
  malloc : ∀ u h0 h n, op = .call u h0 (.malloc h n) → (r ≠ 0 → Aligned h r) ∧
    (r = 0 → s.cur u = .egg ∧ ¬ EggHas s h (if n = 0 then 1 else n))
  memalign : ∀ u h0 h n, op = .call u h0 (.memalign h n) → (r ≠ 0 → Aligned h r) ∧
    (r = 0 → s.cur u = .egg ∧ ¬ EggHas s h (if n = 0 then 1 else n))
  calloc : ∀ u h0 h n z, op = .call u h0 (.calloc h n z) → r ≠ 0 ∧ Aligned h r ∧
    ∀ i, i < n * z → s'.e.p.w.mem (r + i) = 0
  realloc : ∀ u h0 p h n, op = .call u h0 (.realloc p h n) → (n ≠ 0 ∨ p = 0) →
    (r ≠ 0 → r ≠ p → Aligned h r) ∧
    (∀ z pl o, G.Live p z pl o → r ≠ 0 → ∀ i, i < min z n → s'.e.p.w.mem (r + i) = s.e.p.w.mem (p + i)) ∧
    (r = 0 → (s.cur u = .egg ∨ ∃ z pl, G.Live p z pl .egg) ∧
      (s.cur u ≠ .none → ¬ EggHas s h (if n = 0 then 1 else n)))
  /-- the chain of each thread: a call makes one if there is none -/
  cur : ∀ v, s'.cur v = match op with
    | .set u c => if v = u then c else s.cur v
    | .call u _ _ => if v = u then s.next u else s.cur v
    | .write _ _ => s.cur v
  chains : s'.e.p.chs.length = s.e.p.chs.length + match op with
    | .call u _ _ => if s.cur u = .none then 1 else 0
    | _ => 0

/-- Reachable states: start of the process, then any valid steps. -/
inductive SwReach (C : Config) : SwState → SwSpec → Prop
  | init {w : World Light} {a buf h : Nat} {e : ES} : EStart w a buf → GoodBound h → h + LIGHT_SIZE + 16 < W64 →
      eggInit C h w a buf = .ok e → SwReach C ⟨e, fun _ => .none⟩ ⟨⟨[], []⟩, []⟩
  | step {s s' : SwState} {G : SwSpec} {op : SwOp} {r : Nat} : SwReach C s G → SwValid s G op →
      swExec C s op = .ok (s', r) → SwReach C s' (G.swAfter s op r)

end MpcAlloc
