import Verif.Destroy
import Verif.PropsPosix

/-
A process in which any number of threads start and end (/repo/src/sctk_alloc_posix.c 979-1006, sctk_allocator.c 1128-1142,
1565-1574). The chain of a thread that has ended becomes thread safe: the other threads work on it directly. Definitions
only.
-/

namespace MpcAlloc.Ends

/-- The process, its blocks, and the threads that have ended. -/
structure State where
  s : PS
  G : PSpec
  E : List Nat

/-- The thread of the block at `p`, if it has ended. -/
def heir (G : PSpec) (E : List Nat) (p : Nat) : Option Nat :=
  (G.live.find? (fun l => decide (l.ptr = p ∧ l.owner ∈ E))).map PBlock.owner

/-- A block of a thread that has ended is resized in the chain of that thread (sctk_alloc_posix.c 836-841), as its owner
would have done. -/
def asOwner (G : PSpec) (E : List Nat) : POp → POp
  | .realloc u p h n => .realloc (if n = 0 then u else (heir G E p).getD u) p h n
  | op => op

/-- No block waits for a thread that has ended: its blocks are given back at once. -/
def drainAll (G : PSpec) (E : List Nat) : PSpec := { G with pend := G.pend.filter (fun l => decide (l.owner ∉ E)) }

/-- Blocks after a call that returned `r`. -/
def after (G : PSpec) (E : List Nat) (op : POp) (r : Nat) : PSpec := drainAll (G.after (asOwner G E op) r) E

/-- What the threads may call: those that have ended make no call. Aligned blocks of threads that have ended are not made
larger by realloc. -/
def Valid (a : State) (op : POp) : Prop :=
  PValid a.s a.G (asOwner a.G a.E op) ∧ ∀ u, op.thread = some u → u < a.s.chs.length ∧ u ∉ a.E

/-- One call, or the end of a thread. -/
inductive Step (C : Config) (X : POp → Prop) : State → State → Prop
  | call {a : State} {op : POp} {s' : PS} {r : Nat} : Valid a op → X op → pexec C a.s op = .ok (s', r) →
      Step C X a ⟨s', after a.G a.E op r, a.E⟩
  | exit {a : State} {t : Nat} {s' : PS} : t < a.s.chs.length → t ∉ a.E → posixExit C a.s t = .ok s' →
      Step C X a ⟨s', a.G.drain t, t :: a.E⟩

/-- Any number of steps. -/
inductive Steps (C : Config) (X : POp → Prop) (a : State) : State → Prop
  | refl : Steps C X a a
  | tail {b c : State} : Steps C X a b → Step C X b c → Steps C X a c

/-- Start of the process: see `PReach`. -/
def Start (a : State) : Prop :=
  ∃ m R o, R.OK ∧ (∀ k, R.ent k = 0) ∧ (∀ x, x ≤ MB2 → o.used x = true) ∧ a = ⟨⟨⟨m, R, Light.init o⟩, []⟩, ⟨[], []⟩, []⟩

/-- Reachable states. -/
def Reach (C : Config) (X : POp → Prop) (a : State) : Prop := ∃ a0, Start a0 ∧ Steps C X a0 a

/-- Live blocks of a thread. -/
def Of (a : State) (t : Nat) (l : PBlock) : Prop := l ∈ a.G.live ∧ l.owner = t

/-- The call frees the block at `p`. -/
def Frees (op : POp) (p : Nat) : Prop := (∃ u, op = .free u p) ∨ ∃ u h, op = .realloc u p h 0

end MpcAlloc.Ends
