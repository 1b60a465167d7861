import Verif.Basic
import Mathlib.Logic.Function.Basic

/-!
Model of the shared file `/proc/self/pagemap` of the NUMA statistics (sctk_alloc_numa_stat.c), used by any number of threads.
The threads interleave: each access to the global file pointer, each call of the C library on the file and each lock
operation is one step. The lock is the mutex or spinlock of sctk_alloc_lock.h 60-75 (the build without lock, 49-52, is not
modelled); a thread that waits for it stays where it is. Memory is sequentially consistent.
-/

namespace MpcAlloc.Pagemap

/-- The global `sctk_alloc_glob_pagemap_fp`, sctk_alloc_numa_stat.c 38: NULL, the mark of 44, or the `k`-th file that was
opened. -/
inductive File where
  | null
  | notAvail
  | file (k : Nat)
deriving DecidableEq

/-- Where a thread is. -/
inductive PC where
  /-- outside -/
  | idle
  /-- `sctk_alloc_numa_stat_init`, before the test of 127 -/
  | chk
  /-- `sctk_alloc_numa_stat_open_pagemap`: before the lock (54), the test and `fopen` (57-60), the mark (64), the unlock (72) -/
  | oLock | oBody | oMark | oUnlock
  /-- `sctk_alloc_numa_stat_read_pagemap` for `n` entries from `a`: before the test (206), the lock (214), `fseek` (217),
  `fread` (225), the unlock (231) -/
  | rChk (a n : Nat) | rLock (a n : Nat) | rSeek (a n : Nat) | rRead (a n : Nat) | rUnlock
  /-- `sctk_alloc_numa_stat_at_exit`: before the lock (78), the test and `fclose` (81-82), the reset (83), the unlock (87) -/
  | xLock | xBody | xClear | xUnlock

/-- State of the process. `isOpen` and `pos` are those of the C library; `got` lists what was read: thread, first entry and
number of entries asked for, first entry read. -/
structure St where
  fp : File
  opened : Nat
  isOpen : Nat → Bool
  pos : Nat → Nat
  lock : Option Nat
  pc : Nat → PC
  inited : Nat → Bool
  got : List (Nat × Nat × Nat × Nat)

/-- The start of the process. -/
def St.start : St := ⟨.null, 0, fun _ => false, fun _ => 0, none, fun _ => .idle, fun _ => false, []⟩

/-- Thread `t` goes on to `p`. -/
def St.go (s : St) (t : Nat) (p : PC) : St := { s with pc := Function.update s.pc t p }

/-- The file that a call of the C library gets must be open. -/
def St.use (s : St) : Outcome Nat :=
  match s.fp with
  | .file k => if s.isOpen k = true then .ok k else .ub
  | _ => .ub

/-- One step of thread `t`; `ok` is whether an `fopen` succeeds. `fseek` and `fread` are taken to succeed (the code ends
the process otherwise, 218-222 and 228). -/
def stepAt (s : St) (t : Nat) (ok : Bool) : Outcome St :=
  match s.pc t with
  | .idle => .ok s
  | .chk => if s.fp = .null then .ok (s.go t .oLock) else .ok { s.go t .idle with inited := Function.update s.inited t true }
  | .oLock => if s.lock = none then .ok { s.go t .oBody with lock := some t } else .ok s
  | .oBody =>
    if s.fp = .null then
      if ok then .ok { s.go t .oUnlock with fp := .file s.opened, opened := s.opened + 1, isOpen := Function.update s.isOpen s.opened true }
      else .ok (s.go t .oMark)
    else .ok (s.go t .oUnlock)
  | .oMark => .ok { s.go t .oUnlock with fp := .notAvail }
  | .oUnlock => .ok { s.go t .idle with lock := none, inited := Function.update s.inited t true }
  | .rChk a n => if s.fp = .notAvail then .ok (s.go t .idle) else .ok (s.go t (.rLock a n))
  | .rLock a n => if s.lock = none then .ok { s.go t (.rSeek a n) with lock := some t } else .ok s
  | .rSeek a n => s.use >>= fun k => .ok { s.go t (.rRead a n) with pos := Function.update s.pos k a }
  | .rRead a n => s.use >>= fun k =>
      .ok { s.go t .rUnlock with pos := Function.update s.pos k (s.pos k + n), got := (t, a, n, s.pos k) :: s.got }
  | .rUnlock => .ok { s.go t .idle with lock := none }
  | .xLock => if s.lock = none then .ok { s.go t .xBody with lock := some t } else .ok s
  | .xBody =>
    if s.fp = .null then .ok (s.go t .xUnlock)
    else s.use >>= fun k => .ok { s.go t .xClear with isOpen := Function.update s.isOpen k false }
  | .xClear => .ok { s.go t .xUnlock with fp := .null }
  | .xUnlock => .ok { s.go t .idle with lock := none }

/-- Reachable states, with (`X`) or without the handler of the end of the process, which is registered when the file is opened
(67; how often the handler may run is not bounded here). A thread reads after it has made an initialisation. -/
inductive Run (X : Bool) : St → Prop
  | start : Run X .start
  | init {s : St} (t : Nat) : Run X s → s.pc t = .idle → Run X (s.go t .chk)
  | read {s : St} (t a n : Nat) : Run X s → s.pc t = .idle → s.inited t = true → Run X (s.go t (.rChk a n))
  | exit {s : St} (t : Nat) : Run X s → s.pc t = .idle → X = true → 0 < s.opened → Run X (s.go t .xLock)
  | step {s s' : St} (t : Nat) (ok : Bool) : Run X s → stepAt s t ok = .ok s' → Run X s'

end MpcAlloc.Pagemap
