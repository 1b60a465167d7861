import Verif.PosixSpec

/-
End of a thread: its chain is marked for destruction (/repo/src/sctk_allocator.c 1128-1142, sctk_alloc_posix.c 979-1006) and
disappears when the blocks it still holds have been freed by the other threads. Definitions only.
-/

namespace MpcAlloc

/-- `sctk_alloc_posix_mark_current_for_destroy`, sctk_alloc_posix.c 989-1006, called by thread `t`. Simplification: the
current chain of the thread becomes the egg chain, which is not modelled, so the thread makes no call afterwards. -/
def posixExit (C : Config) (s : PS) (t : Nat) : Outcome PS := do
  let u ← s.loc t
  let u ← markForDestroy (lightSource C) C u
  return s.put t u

/-- Calls considered after the end of thread `t`: those of the other threads. They may free the blocks of `t` but not resize
them. -/
def AfterExit (t : Nat) (G : PSpec) : POp → Prop
  | .malloc u _ _ | .memalign u _ _ | .calloc u _ _ _ | .free u _ => u ≠ t
  | .realloc u p _ _ => u ≠ t ∧ ∀ l ∈ G.live, l.ptr = p → l.owner ≠ t
  | .spawn _ _ _ | .write _ _ => True

/-- What the other threads do after the end of thread `t`. A block of `t` is given back at once: `drain` removes it from the
blocks that wait for their owner. -/
inductive Later (C : Config) (X : POp → Prop) (t : Nat) (s0 : PS) (G0 : PSpec) : PS → PSpec → Prop
  | refl : Later C X t s0 G0 s0 G0
  | step {s s' : PS} {G : PSpec} {op : POp} {r : Nat} : Later C X t s0 G0 s G → PValid s G op → X op → AfterExit t G op →
      pexec C s op = .ok (s', r) → Later C X t s0 G0 s' ((G.after op r).drain t)

/-- States of a process whose thread `t` has ended. -/
def Ended (C : Config) (X : POp → Prop) (t : Nat) (s : PS) (G : PSpec) : Prop :=
  ∃ s0 G0 s1, PReach C X s0 G0 ∧ t < s0.chs.length ∧ posixExit C s0 t = .ok s1 ∧ Later C X t s1 (G0.drain t) s G

/-! ## Two threads in `sctk_alloc_chain_free_macro_bloc`

The huge path of `sctk_alloc_chain_free` (sctk_allocator.c 1612-1619) does not take the lock of the chain, so that the end of
`sctk_alloc_chain_free_macro_bloc` (1565-1574) runs in several threads at a time. -/

/-- Place of a thread: before the load and after the load of the counter by `cnt_macro_blocs--`, before the test, in the call
of the handler, and after. -/
inductive DPc where
  | load
  | store (v : Int)
  | test
  | call
  | done
deriving DecidableEq

/-- Counter of the chain, number of handler calls, place of each thread. -/
structure DS where
  cnt : Int
  calls : Nat
  pc : Nat → DPc

/-- One step of thread `t`. Memory accesses are taken in some sequential order. -/
def dstep (s : DS) (t : Nat) : DS :=
  let go (p : DPc) : Nat → DPc := fun u => if u = t then p else s.pc u
  match s.pc t with
  | .load => { s with pc := go (.store s.cnt) }
  | .store v => { s with cnt := v - 1, pc := go .test }
  | .test => { s with pc := go (if s.cnt = 0 then .call else .done) }
  | .call => { s with calls := s.calls + 1, pc := go .done }
  | .done => s

/-- A run: the threads that make a step, in order. -/
def drun (s : DS) (l : List Nat) : DS := l.foldl dstep s

/-- `n` threads free the `n` blocs of a marked chain. -/
def dstart (n : Nat) : DS := ⟨n, 0, fun t => if t < n then .load else .done⟩

/-- All threads have finished. -/
def DS.Over (s : DS) : Prop := ∀ t, s.pc t = .done

end MpcAlloc
