import Verif.BaseInit
import Verif.NumaMigrate
import Verif.PropsSource
import Verif.ConcSource
import Mathlib.Data.Finset.Max

/-
Selection of the NUMA node and of the memory source of a thread, migration of the chain of a thread (build with hwloc;
/repo/src/sctk_alloc_topology.c, sctk_alloc_posix.c), node of `sctk_hbw_malloc`. Definitions and lemmas.
-/

namespace MpcAlloc
namespace NodeSelect

open NumaStat (pagesOf chainPages)
open NumaMigrate (Binding Moved chainMigrate)

/-! ## Bitmaps of hwloc -/

/-- A bitmap. Simplification: finite ones only. -/
abbrev Bitmap := Finset Nat

/-- `hwloc_bitmap_first`: -1 if empty. -/
def bFirst (b : Bitmap) : Int := if h : b.Nonempty then (b.min' h : Nat) else -1

/-- `hwloc_bitmap_last`. -/
def bLast (b : Bitmap) : Int := if h : b.Nonempty then (b.max' h : Nat) else -1

/-- `hwloc_bitmap_isset`. -/
def bIsset (b : Bitmap) (i : Int) : Bool := decide (0 ≤ i ∧ i.toNat ∈ b)

/-- `hwloc_bitmap_next`. -/
def bNext (b : Bitmap) (i : Int) : Int := bFirst (b.filter fun (x : Nat) => i < (x : Int))

/-- The loop of `sctk_get_first_bit_in_bitmap`, sctk_alloc_topology.c 163-168. -/
def bitLoop (b : Bitmap) (last cur : Int) : Outcome Int :=
  if cur ≠ last then
    if bIsset b cur then .ok cur else bitLoop b last (bNext b cur)
  else .ok cur
partial_fixpoint

/-- `sctk_get_first_bit_in_bitmap`, 158-170. -/
def firstBit (b : Bitmap) : Outcome Int := bitLoop b (bLast b) (bFirst b)

/-! ## Selection of the node -/

/-- What hwloc answers to the calling thread: the number of nodes; for each of the three questions whether it succeeds, and
the bitmap that it leaves; the translation of sets of cores to sets of nodes. -/
structure Hw where
  nodes : Nat
  membindNodes : Bool × Bitmap
  membindCores : Bool × Bitmap
  cpubind : Bool × Bitmap
  toNodes : Bitmap → Bitmap

/-- The end of the two functions below: the node, if there is one only. -/
def single (b : Bitmap) : Outcome Int := if b.card = 1 then firstBit b else .ok (-1)

/-- `sctk_get_preferred_numa_node_no_mpc_numa_binding`, 180-243. The functions of hwloc return 0 for success, at which the code
gives up. (The bitmaps are not freed then.) -/
def numaBinding (h : Hw) : Outcome Int :=
  if h.nodes = 0 then .ok (-1)
  else if h.membindNodes.1 then .ok (-1)
  else if h.membindCores.1 then .ok (-1)
  else single (h.toNodes h.membindCores.2)

/-- `sctk_get_preferred_numa_node_no_mpc_thread_binding`, 249-290. -/
def threadBinding (h : Hw) : Outcome Int :=
  if h.cpubind.1 then .ok (-1) else single (h.toNodes h.cpubind.2)

/-- `sctk_get_preferred_numa_node` and `..._no_mpc`, 296-318: the result of the first search is not used. -/
def preferred (h : Hw) : Outcome Int := do
  let _ ← numaBinding h
  threadBinding h

/-- `sctk_alloc_init_on_numa_node`, 356-364. `sctk_alloc_get_current_numa_node` is the function that returns -1 (345-351), since the
build defines none of `HAVE_LINUX_GETCPU` and `HAVE_GETCPU`. -/
def initOnNode (h : Hw) : Outcome Int := do
  let node ← preferred h
  if node ≠ -1 then return node else return -1

/-! ## The source of a thread -/

/-- The options `numa`, `numa_round_robin` and `numa_migration`. -/
structure Opt where
  numa : Bool
  rr : Bool
  mig : Bool

/-- The node in `sctk_alloc_posix_get_local_mm_source`, sctk_alloc_posix.c 326-338. -/
def localNode (h : Hw) (o : Opt) (st : BaseInit.St) (force : Bool) : Outcome Int :=
  if st = .egg ∨ st = .default then .ok 128
  else if h.nodes ≠ 0 ∧ o.numa = true ∧ force = false then initOnNode h
  else .ok 128

/-- The end of `sctk_alloc_posix_get_local_mm_source`, 350-365. `set`: the indices of the sources that were set. -/
def localTake (set : List Nat) (node : Int) : Outcome Nat :=
  let node := if node = -1 then 128 else node
  if ¬ node ≤ 128 then .abort
  else if 0 ≤ node ∧ node.toNat ∈ set then .ok node.toNat
  else .ub

/-- `sctk_alloc_posix_get_local_mm_source`, 320-367: index of the source, and the counter of the round robin (one step, see
RoundRobin.lean). The condition of line 344 is always true. -/
def localSource (h : Hw) (o : Opt) (st : BaseInit.St) (set : List Nat) (cnt : Nat) (force : Bool) : Outcome (Nat × Nat) := do
  let node ← localNode h o st force
  if o.rr then do
    if h.nodes = 0 then .ub else
    let i ← localTake set cnt
    return (i, (cnt + 1) % h.nodes)
  else do
    let i ← localTake set node
    return (i, cnt)

/-- `numa_node` of the source of index `i`, sctk_alloc_posix.c 212-231 and 264-272: with at most one node the source 0 is the
default one. -/
def nodeOf (h : Hw) (i : Nat) : Int := if i = 128 ∨ h.nodes ≤ 1 then -1 else i

/-- `sctk_alloc_posix_numa_migrate_chain`, 930-966. The chain at `chain` has the light source of index `src`, or another source or
none; `entries`, `noRegion`: see `NumaMigrate.migrateContent`. Result: bindings, source, counter of the round robin. -/
def migrateChain (h : Hw) (o : Opt) (st : BaseInit.St) (set : List Nat) (cnt : Nat) (noRegion : Bool) (chain : Nat)
    (src : Option Nat) (entries : List (Option (Nat × Nat × Nat))) (b : Binding) : Outcome (Binding × Option Nat × Nat) := do
  let (i, cnt) ← localSource h o st set cnt false
  let old := src.elim (-1) (nodeOf h)
  let new := nodeOf h i
  if old ≠ new ∧ new ≠ 128 then do
    let b ← chainMigrate o.mig h.nodes noRegion chain new true true entries b
    return (b, some i, cnt)
  else return (b, src, cnt)

/-! ## High bandwidth memory -/

/-- `sctk_topology_mcdram_detection`, sctk_alloc_topology.c 60-86: the subtypes of the nodes in the order of their logical index; the
last one that is MCDRAM is kept. The result is remembered, the topology does not change. -/
def mcdram (l : List (Option String)) : Int := go l 0 (-1)
where
  go : List (Option String) → Nat → Int → Int
    | [], _, res => res
    | none :: l, i, res => go l (i + 1) res
    | some t :: l, i, res => go l (i + 1) (if t = "MCDRAM" then i else res)

/-- `sctk_hbw_malloc`, sctk_alloc_on_node.c 171-190 (hwloc 2): the chain that serves it, see `OnNode.nodeIndex`. -/
def hbwIndex (l : List (Option String)) : Outcome (Option Nat) :=
  let node := mcdram l
  OnNode.nodeIndex l.length (decide (l.length ≠ 0)) (if node = -1 then 0 else node)

/-! ## Lemmas -/

theorem firstBit_eq {b : Bitmap} (h : b.Nonempty) : firstBit b = .ok (b.min' h : Nat) := by
  have e1 : bFirst b = (b.min' h : Nat) := by unfold bFirst; rw [dif_pos h]
  unfold firstBit
  rw [bitLoop, e1]
  split
  · rw [if_pos]
    unfold bIsset
    simp [Finset.min'_mem]
  · rfl

theorem single_ok (b : Bitmap) : ∃ r, single b = .ok r ∧ (r = -1 ∨ ∃ k : Nat, b = {k} ∧ r = k) := by
  unfold single
  split
  · rename_i h
    obtain ⟨k, rfl⟩ := Finset.card_eq_one.1 h
    refine ⟨k, ?_, .inr ⟨k, rfl, rfl⟩⟩
    rw [firstBit_eq (Finset.singleton_nonempty k)]
    simp
  · exact ⟨-1, rfl, .inl rfl⟩

theorem single_singleton (k : Nat) : single {k} = .ok k := by
  unfold single
  rw [if_pos (by simp), firstBit_eq (Finset.singleton_nonempty k)]
  simp

theorem single_empty : single ∅ = .ok (-1) := by
  unfold single
  rw [if_neg (by simp)]

theorem numaBinding_ok (h : Hw) : ∃ r, numaBinding h = .ok r := by
  unfold numaBinding
  split
  · exact ⟨_, rfl⟩
  · split
    · exact ⟨_, rfl⟩
    · split
      · exact ⟨_, rfl⟩
      · obtain ⟨r, e, _⟩ := single_ok (h.toNodes h.membindCores.2)
        exact ⟨r, e⟩

/-- The node that is found: only the failure of the last question gives one. -/
theorem initOnNode_eq (h : Hw) : initOnNode h = if h.cpubind.1 then .ok (-1) else single (h.toNodes h.cpubind.2) := by
  unfold initOnNode preferred
  obtain ⟨r, e⟩ := numaBinding_ok h
  rw [e, Outcome.ok_bind]
  unfold threadBinding
  split
  · rfl
  · obtain ⟨r, e, _⟩ := single_ok (h.toNodes h.cpubind.2)
    rw [e, Outcome.ok_bind]
    by_cases hr : r = -1
    · rw [if_neg (by simp [hr]), hr]; rfl
    · rw [if_pos hr]; rfl

theorem initOnNode_ok (h : Hw) : ∃ r, initOnNode h = .ok r ∧ (r = -1 ∨
    ∃ k : Nat, r = k ∧ h.cpubind.1 = false ∧ h.toNodes h.cpubind.2 = {k}) := by
  rw [initOnNode_eq]
  split
  · exact ⟨-1, rfl, .inl rfl⟩
  · rename_i hb
    obtain ⟨r, e, hr⟩ := single_ok (h.toNodes h.cpubind.2)
    refine ⟨r, e, hr.imp_right ?_⟩
    rintro ⟨k, h1, h2⟩
    exact ⟨k, h2, by simpa using hb, h1⟩

theorem localTake_nat {set : List Nat} {k : Nat} (h : k ≤ 128) (hm : k ∈ set) : localTake set k = .ok k := by
  unfold localTake
  have e : (if (k : Int) = -1 then (128 : Int) else k) = k := if_neg (by omega)
  simp only [e]
  rw [if_neg (by omega), if_pos ⟨by omega, hm⟩]
  rfl

theorem localTake_128 {set : List Nat} (hm : 128 ∈ set) : localTake set 128 = .ok 128 :=
  localTake_nat (k := 128) (by omega) hm

theorem localTake_neg {set : List Nat} (hm : 128 ∈ set) : localTake set (-1) = .ok 128 := by
  rw [← localTake_128 hm]
  rfl

theorem localNode_ok (h : Hw) (o : Opt) (st : BaseInit.St) (force : Bool) : ∃ node, localNode h o st force = .ok node ∧
    (node = -1 ∨ node = 128 ∨ ∃ k : Nat, node = k ∧ h.cpubind.1 = false ∧ h.toNodes h.cpubind.2 = {k}) := by
  unfold localNode
  split
  · exact ⟨_, rfl, .inr (.inl rfl)⟩
  · split
    · obtain ⟨r, e, hr⟩ := initOnNode_ok h
      refine ⟨r, e, ?_⟩
      rcases hr with hr | hr
      · exact .inl hr
      · exact .inr (.inr hr)
    · exact ⟨_, rfl, .inr (.inl rfl)⟩

end NodeSelect
end MpcAlloc
