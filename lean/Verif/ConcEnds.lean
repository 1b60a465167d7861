import Verif.ConcSpec

/-
Threads that end while the others run (/repo/src/sctk_alloc_posix.c 989-1006, sctk_allocator.c 1128-1142). The process of
ConcPosix.lean with, in addition, the steps of `sctk_alloc_posix_mark_current_for_destroy`: the chain is made thread safe,
then it gets its destruction handler, then its remote free queue is purged. A chain released by its handler may not be
touched any more. Definitions only.
-/

namespace MpcAlloc.ConcEnds

open Queue (CPC PPC upd)

/-- The chain `i` was released by its handler. -/
def dead (k : MS) (i : Nat) : Bool := (k.chs[i]?).any (fun c => c.dead)

/-- The flag `SCTK_ALLOC_CHAIN_FLAGS_THREAD_SAFE` of the chain `i`: its thread has begun to end. -/
def safe (k : MS) (i : Nat) : Bool := (k.chs[i]?).any (fun c => c.threadSafe)

/-- The chain `i` has its destruction handler. -/
def hand (k : MS) (i : Nat) : Bool := (k.chs[i]?).any (fun c => c.handler)

/-- Number of calls of the handler of the chain `i`. -/
def calls (k : MS) (i : Nat) : Nat := (k.chs[i]?).elim 0 (fun c => c.calls)

/-- The chain in which the search finds `p`. -/
def found (k : MS) (p : Nat) : List Nat :=
  match k.look p with
  | .ok (_, some (_, i)) => [i]
  | _ => []

/-- The chains of which the next step of `t` reads or writes the structure: its own queue in the purge
(sctk_allocator.c 1787-1825) and its own chain in the allocation, the flags of the chain that the search finds
(sctk_alloc_posix.c 716 and 832), the chain in which it frees or resizes, the head or tail of the queue in which it
pushes. -/
def used (k : MS) (t : Nat) : List Nat :=
  match k.pc t with
  | .purge _ .idle => [t]
  | .purge _ .load => [t]
  | .purge _ (.clearHead _) => [t]
  | .purge _ (.swapTail _) => [t]
  | .purge _ (.dfree _ _) => [t]
  | .alloc _ _ _ => [t]
  | .look p _ => if p = 0 then [] else found k p
  | .lfree i _ _ => [i]
  | .push i (.swap _) _ => [i]
  | .push i (.link _ p) _ => if p = 0 then [i] else []
  | .rlook p _ _ => found k p
  | .rlocal i _ _ _ => [i]
  | _ => []

/-- One step of thread `t`: see `mstep`. To touch the structure of a released chain is undefined. -/
def step (C : Config) (k : MS) (t : Nat) : Outcome (MS × Option Nat) :=
  if (used k t).any (dead k) then .ub else mstep C k t

/-- A change of the structure of the chain of `t`. -/
def MS.chain (k : MS) (t : Nat) (f : Chain → Chain) : MS := { k with chs := k.chs.modify t f }

/-- `sctk_alloc_chain_make_thread_safe (chain, true)`, sctk_allocator.c 1112-1121 and 1135. -/
def setSafe (k : MS) (t : Nat) : MS := MS.chain k t (fun c => { c with threadSafe := true })

/-- The handler is set (sctk_allocator.c 1138) and the purge of the queue begins (1141). The purge, which is the last thing
that the thread does, is that of a call of `sctk_free (NULL)`. -/
def setHandler (k : MS) (t : Nat) : MS := (MS.chain k t (fun c => { c with handler := true })).start t (.free 0)

/-- One event: a call by a thread that runs, a step of a thread, a store of the client into its blocks, a new thread, and
the two first steps of the end of a thread. The third, the purge, is made of steps. Aligned blocks are not made larger by
realloc. -/
inductive Event (C : Config) (X : MCall → Prop) : MS → MS → Prop
  | call {k : MS} {t : Nat} {op : MCall} : t < k.chs.length → safe k t = false → k.pc t = .idle → MValid k t op →
      NoGrow k op → X op → Event C X k (k.start t op)
  | step {k k' : MS} {t : Nat} {o : Option Nat} : step C k t = .ok (k', o) → Event C X k k'
  | write {k : MS} {l : PBlock} {a : Nat} {v : UInt8} : l ∈ k.G.live → l.Byte a →
      Event C X k (k.setMem (fun x => if x = a then v else k.w.mem x))
  | spawn {k : MS} {s : PS} {a z pb : Nat} : PValid k.ps ⟨[], []⟩ (.spawn a z pb) → posixSpawn k.ps a z pb = .ok s →
      Event C X k (k.spawned s)
  | flag {k : MS} {t : Nat} : t < k.chs.length → safe k t = false → k.pc t = .idle → Event C X k (setSafe k t)
  | handler {k : MS} {t : Nat} : safe k t = true → hand k t = false → k.pc t = .idle → Event C X k (setHandler k t)

/-- Any number of events. -/
inductive Events (C : Config) (X : MCall → Prop) (k : MS) : MS → Prop
  | refl : Events C X k k
  | tail {k1 k2 : MS} : Events C X k k1 → Event C X k1 k2 → Events C X k k2

/-- Start of the process: see `MReach`. -/
def Start (k : MS) : Prop :=
  ∃ m R o, R.OK ∧ (∀ i, R.ent i = 0) ∧ (∀ x, x ≤ MB2 → o.used x = true) ∧
    k = ⟨⟨m, R, Light.init o⟩, [], fun _ => 0, fun _ => 0, fun _ => .idle, ⟨[], [], []⟩, fun _ => none⟩

/-- Reachable states. -/
def Reach (C : Config) (X : MCall → Prop) (k : MS) : Prop := ∃ k0, Start k0 ∧ Events C X k0 k

end MpcAlloc.ConcEnds
