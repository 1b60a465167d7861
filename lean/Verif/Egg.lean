import Verif.PosixSpec

/-
The egg chain: a chain over a static buffer of 2 MB, from which the code takes the structure of the memory source and
those of the chains of the threads. Build without hwloc.
-/

namespace MpcAlloc

/-- Size of `struct sctk_alloc_chain`, sctk_alloc_chain.h 78-111 (x86-64, hooks off). Its first field is the pool, whose
first field is the array of list heads (sctk_alloc_thread_pool.h 57-79). -/
def CHAIN_SIZE : Nat := 1680

/-- Size of `struct sctk_alloc_mm_source_light`, sctk_alloc_light_mm_source.h 69-91 (x86-64, without hwloc). -/
def LIGHT_SIZE : Nat := 72

/-- `SCTK_DEFAULT_NUMA_MM_SOURCE_ID`, sctk_alloc_common.h 132-142: equal to `SCTK_MAX_NUMA_NODE`, which is 1 without
hwloc. -/
def DEFAULT_SOURCE_ID : Nat := 1

/-- State of the process: the threads, and the egg chain (`sctk_global_egg_chain`, sctk_alloc_posix.c 83). -/
structure ES where
  p : PS
  egg : Chain

/-- `sctk_alloc_posix_base_init`, sctk_alloc_posix.c 391-478, with `sctk_alloc_posix_mmsrc_uma_init`, 196-208. The egg
chain is the static structure at `a`, its memory the static buffer at `buf`. `hook` is the value of the network hook (see
`chainAlloc`). The state of the light source is a record of the model, not the bytes of its structure; the configuration
is a parameter. The egg chain gets the source of index `SCTK_DEFAULT_NUMA_MM_SOURCE_ID`, but only that of index 0 was set:
the pointer is NULL (line 460). -/
def eggInit (C : Config) (hook : Nat) (w : World Light) (a buf : Nat) : Outcome ES := do
  let u ← userInit w a a buf MB2 true false false
  let (u, r) ← chainAlloc (lightSource C) hook u LIGHT_SIZE
  -- `sctk_alloc_mm_source_light_init` writes the fields of the structure
  if r = 0 then .ub else
  let sources : Nat → Nat := fun i => if i = 0 then r else 0
  return ⟨⟨u.w, []⟩, { u.c with hasSrc := decide (sources DEFAULT_SOURCE_ID ≠ 0) }⟩

/-- First call of a thread: `sctk_alloc_posix_setup_tls_chain` and `sctk_alloc_posix_create_new_tls_chain`,
sctk_alloc_posix.c 483-546. The structure comes from the egg chain; the test of the result is an `assert`, off in a
release build, and `sctk_alloc_chain_user_init` writes the fields of the structure. -/
def eggSpawn (C : Config) (hook : Nat) (e : ES) : Outcome ES := do
  let (u, a) ← chainAlloc (lightSource C) hook ⟨e.p.w, e.egg⟩ CHAIN_SIZE
  if a = 0 then .ub else
  let p ← posixSpawn { e.p with w := u.w } a CHAIN_SIZE a
  return ⟨p, u.c⟩

/-- Calls: the first call of a new thread, and the calls of `POp` (without `spawn`). -/
inductive EOp where
  | spawn (hook : Nat)
  | call (op : POp)

/-- Execution of one call by the model of the C code. -/
def eexec (C : Config) (e : ES) : EOp → Outcome (ES × Nat)
  | .spawn h => do
    let e ← eggSpawn C h e
    return (e, 0)
  | .call op => do
    let (p, r) ← pexec C e.p op
    return (⟨p, e.egg⟩, r)

/-- What the threads may call. -/
def EValid (e : ES) (G : PSpec) : EOp → Prop
  | .spawn h => GoodBound h ∧ h + CHAIN_SIZE + 16 < W64
  | .call op => (∀ a z pb, op ≠ .spawn a z pb) ∧ PValid e.p G op

/-- Blocks after a call that returned `r`. -/
def PSpec.eafter (G : PSpec) : EOp → Nat → PSpec
  | .spawn _, _ => G
  | .call op, r => G.after op r

/-- Start of the process: nothing is registered in the regions, the first 2 MB of the address space are in use, and so are
the structure of the egg chain at `a` and its buffer at `buf`, above them, disjoint and aligned on 16 bytes. -/
structure EStart (w : World Light) (a buf : Nat) : Prop where
  regs : w.regs.OK
  none : ∀ k, w.regs.ent k = 0
  src : ∃ o, w.src = Light.init o
  low : ∀ x, x ≤ MB2 → w.src.os.used x = true
  heads : ∀ x, a ≤ x → x < a + 1536 → w.src.os.used x = true
  buffer : ∀ x, buf ≤ x → x < buf + MB2 → w.src.os.used x = true
  above : MB2 < a ∧ MB2 < buf
  align : 16 ∣ buf
  high : a + 1536 < W64 ∧ buf + MB2 ≤ 281474976710656
  apart : a + 1536 ≤ buf ∨ buf + MB2 ≤ a

/-- Reachable states, for the calls that satisfy `X`. -/
inductive EReach (C : Config) (X : EOp → Prop) : ES → PSpec → Prop
  | init {w : World Light} {a buf h : Nat} {e : ES} : EStart w a buf → GoodBound h → h + LIGHT_SIZE + 16 < W64 →
      X (.spawn h) → eggInit C h w a buf = .ok e → EReach C X e ⟨[], []⟩
  | step {e e' : ES} {G : PSpec} {op : EOp} {r : Nat} : EReach C X e G → EValid e G op → X op →
      eexec C e op = .ok (e', r) → EReach C X e' (G.eafter op r)

end MpcAlloc
