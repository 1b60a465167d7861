import Verif.NodeSelect
import Verif.PropsConcSource

/-
C60: the node and the memory source of a thread. C61: the node of `sctk_hbw_malloc`.
-/

namespace MpcAlloc
namespace NodeSelect

open NumaStat (pagesOf chainPages)
open NumaMigrate (Binding Moved chainMigrate)

/-! ## Specification -/

/-- hwloc answers that the calling thread is bound to cores of the node `k` only. -/
def BoundTo (h : Hw) (k : Nat) : Prop := h.cpubind.1 = true ∧ h.toNodes h.cpubind.2 = {k}

/-- The sources that are set when the start-up of a process on a machine with `n` nodes is over: the default one (128), and one
for each node, at least one. -/
def Set (n : Nat) (set : List Nat) : Prop := ∀ i, i ∈ set ↔ i = 128 ∨ i < max n 1

/-- When hwloc fails it leaves the bitmap as it was, empty, and no cores have no nodes. -/
def Clean (h : Hw) : Prop := h.cpubind.1 = false → h.toNodes h.cpubind.2 = ∅

/-! ## Properties -/

/-- **C60** (bitmaps). The first bit of a bitmap that is not empty is its smallest element; the loop ends at once. -/
theorem C60_first {b : Bitmap} (h : b.Nonempty) :
    ∃ k : Nat, firstBit b = .ok k ∧ k ∈ b ∧ ∀ j ∈ b, k ≤ j :=
  ⟨_, firstBit_eq h, Finset.min'_mem b h, fun j hj => Finset.min'_le b j hj⟩

/-- The sources after the start-up are those of C53. -/
theorem set_start (n : Nat) (rr : Bool) : Set n (BaseInit.P.upto ⟨true, n, rr⟩ (BaseInit.P.more ⟨true, n, rr⟩)) := by
  intro i
  rw [BaseInit.P.mem_upto]
  rfl

/-- **C60** (partial: the nodes that hwloc names exist; a machine without nodes has no round robin). After the start-up every
thread is given a source that is set, and the counter of the round robin stays below the number of nodes. -/
theorem C60_source_partial {h : Hw} {o : Opt} {st : BaseInit.St} {set : List Nat} {cnt : Nat} (hs : Set h.nodes set)
    (hn : h.nodes ≤ 128) (hk : ∀ k, h.toNodes h.cpubind.2 = {k} → k < h.nodes) (hc : o.rr = true → cnt < h.nodes)
    (force : Bool) : ∃ i c, localSource h o st set cnt force = .ok (i, c) ∧ i ∈ set ∧ (o.rr = true → c < h.nodes) := by
  have h128 : 128 ∈ set := (hs _).2 (.inl rfl)
  obtain ⟨node, e, hnode⟩ := localNode_ok h o st force
  unfold localSource
  rw [e, Outcome.ok_bind]
  cases hr : o.rr with
  | true =>
    have hc' := hc hr
    have hm : cnt ∈ set := (hs _).2 (.inr (by omega))
    rw [if_pos rfl, if_neg (by omega), localTake_nat (by omega) hm, Outcome.ok_bind]
    exact ⟨cnt, _, rfl, hm, fun _ => Nat.mod_lt _ (by omega)⟩
  | false =>
    rw [if_neg (by simp)]
    have hi : ∃ i, localTake set node = .ok i ∧ i ∈ set := by
      rcases hnode with rfl | rfl | ⟨k, rfl, _, hk'⟩
      · exact ⟨128, localTake_neg h128, h128⟩
      · exact ⟨128, localTake_128 h128, h128⟩
      · have := hk k hk'
        have hm : k ∈ set := (hs _).2 (.inr (by omega))
        exact ⟨k, localTake_nat (by omega) hm, hm⟩
    obtain ⟨i, e, hi⟩ := hi
    rw [e, Outcome.ok_bind]
    exact ⟨i, cnt, rfl, hi, fun h => by cases h⟩

/-- At the first call of a thread this is the choice of C53. -/
theorem localSource_force {h : Hw} {o : Opt} {s : BaseInit.S} (hn : o.rr = true → s.cnt ≤ 128) :
    localSource h o s.st s.set s.cnt true = BaseInit.pickSource ⟨true, h.nodes, o.rr⟩ s := by
  have e : localNode h o s.st true = .ok 128 := by
    unfold localNode
    split
    · rfl
    · rw [if_neg (by simp)]
  have key : ∀ k : Nat, k ≤ 128 → localTake s.set k = if k ∈ s.set then .ok k else .ub := by
    intro k hk
    by_cases hm : k ∈ s.set
    · rw [localTake_nat hk hm, if_pos hm]
    · unfold localTake
      have e : (if (k : Int) = -1 then (128 : Int) else k) = k := if_neg (by omega)
      simp only [e]
      rw [if_neg (by omega), if_neg (fun h => hm h.2), if_neg hm]
  unfold localSource BaseInit.pickSource
  rw [e, Outcome.ok_bind]
  cases hr : o.rr with
  | true =>
    rw [if_pos rfl]
    simp only [and_self, if_true]
    by_cases h0 : h.nodes = 0
    · rw [if_pos h0, if_pos h0]
    · rw [if_neg h0, if_neg h0, key s.cnt (hn hr)]
      by_cases hm : s.cnt ∈ s.set
      · rw [if_pos hm, if_pos hm]; rfl
      · rw [if_neg hm, if_neg hm]; rfl
  | false =>
    rw [if_neg (by simp), if_neg (by simp)]
    have := key 128 (by omega)
    rw [show ((128 : Nat) : Int) = 128 from rfl] at this
    rw [this]
    show _ = if 128 ∈ s.set then _ else _
    by_cases hm : 128 ∈ s.set
    · rw [if_pos hm, if_pos hm]; rfl
    · rw [if_neg hm, if_neg hm]; rfl

/-- **C60** (default). Without round robin a thread gets the default source: when the option is off, at its first call, during the
start-up, and when its cores are not on one node. -/
theorem C60_default {h : Hw} {o : Opt} {st : BaseInit.St} {set : List Nat} {cnt : Nat} (hs : Set h.nodes set)
    (hr : o.rr = false) {force : Bool} (hd : o.numa = false ∨ force = true ∨ st = .egg ∨ st = .default ∨
      ∀ k, h.toNodes h.cpubind.2 ≠ {k}) : localSource h o st set cnt force = .ok (128, cnt) := by
  have h128 : 128 ∈ set := (hs _).2 (.inl rfl)
  have key : ∃ node, localNode h o st force = .ok node ∧ (node = -1 ∨ node = 128) := by
    obtain ⟨r, e, hn⟩ := initOnNode_ok h
    unfold localNode
    split
    · exact ⟨_, rfl, .inr rfl⟩
    · rename_i h1
      split
      · rename_i h2
        refine ⟨r, e, .inl ?_⟩
        rcases hn with hn | ⟨k, _, _, hk⟩
        · exact hn
        · rcases hd with hd | hd | hd | hd | hd
          · rw [hd] at h2; exact absurd h2.2.1 (by simp)
          · rw [hd] at h2; exact absurd h2.2.2 (by simp)
          · exact absurd (.inl hd) h1
          · exact absurd (.inr hd) h1
          · exact absurd hk (hd k)
      · exact ⟨_, rfl, .inr rfl⟩
  obtain ⟨node, e, hn⟩ := key
  unfold localSource
  rw [e, Outcome.ok_bind, if_neg (by simp [hr])]
  have : localTake set node = .ok 128 := by
    rcases hn with rfl | rfl
    · exact localTake_neg h128
    · exact localTake_128 h128
  rw [this]
  rfl

/-- **C60** is false of the code: a thread that is bound to the cores of a node is never given the source of the node. When hwloc
answers, the code takes the answer for a failure; the thread gets the default source. -/
theorem C60_refuted_bound {h : Hw} {o : Opt} {st : BaseInit.St} {set : List Nat} {cnt k : Nat} (hb : BoundTo h k)
    (hs : Set h.nodes set) (hr : o.rr = false) (force : Bool) : localSource h o st set cnt force = .ok (128, cnt) := by
  have h128 : 128 ∈ set := (hs _).2 (.inl rfl)
  obtain ⟨node, e, hn⟩ := localNode_ok h o st force
  unfold localSource
  rw [e, Outcome.ok_bind, if_neg (by simp [hr])]
  have : localTake set node = .ok 128 := by
    rcases hn with rfl | rfl | ⟨k, _, h1, _⟩
    · exact localTake_neg h128
    · exact localTake_128 h128
    · rw [hb.1] at h1; cases h1
  rw [this]
  rfl

/-- **C60** is false of the code: no thread ever gets a node, whatever it is bound to, and also when hwloc fails. -/
theorem C60_refuted_never {h : Hw} (hc : Clean h) : initOnNode h = .ok (-1) := by
  rw [initOnNode_eq]
  split
  · rfl
  · rename_i hb
    rw [hc (by simpa using hb), single_empty]

/-- **C60** is false of the code: with the option of the round robin the node of the thread is replaced in all cases, not
only when it is not known. -/
theorem C60_refuted_robin {h : Hw} {o : Opt} {set : List Nat} {cnt : Nat} (hs : Set h.nodes set) (hn : h.nodes ≤ 128)
    (hc : cnt < h.nodes) (hr : o.rr = true) : localSource h o .numa set cnt false = .ok (cnt, (cnt + 1) % h.nodes) := by
  obtain ⟨node, e, _⟩ := localNode_ok h o .numa false
  unfold localSource
  rw [e, Outcome.ok_bind, if_pos hr, if_neg (by omega), localTake_nat (by omega) ((hs _).2 (.inr (by omega)))]
  rfl

/-- **C60** (migration; partial: when a node is found). The structure and all blocs of the chain are bound to the node, no other
page is, and the chain gets the source of the node. -/
theorem C60_migrate_partial {h : Hw} {o : Opt} {set : List Nat} {cnt chain k : Nat} {src : Option Nat}
    {l : List (Option (Nat × Nat × Nat))} (b : Binding) (hs : Set h.nodes set) (hn : h.nodes ≤ 128) (h2 : 2 ≤ h.nodes)
    (hk : initOnNode h = .ok k) (hkn : k < h.nodes) (ho : o.numa = true) (hm : o.mig = true) (hr : o.rr = false)
    (hsrc : src.elim (-1) (nodeOf h) ≠ k) (hc : chain ≠ 0)
    (hl : ∀ bloc size, some (bloc, size, chain) ∈ l → bloc ≠ 0 ∧ size ≠ 0) :
    ∃ b', migrateChain h o .numa set cnt false chain src l b = .ok (b', some k, cnt) ∧
      Moved (pagesOf chain 1680 ∪ chainPages chain l) k b b' := by
  have e : localSource h o .numa set cnt false = .ok (k, cnt) := by
    have e1 : localNode h o .numa false = .ok k := by
      unfold localNode
      rw [if_neg (by simp), if_pos ⟨by omega, ho, rfl⟩, hk]
    unfold localSource
    rw [e1, Outcome.ok_bind, if_neg (by simp [hr]), localTake_nat (by omega) ((hs _).2 (.inr (by omega)))]
    rfl
  have hnode : nodeOf h k = k := by unfold nodeOf; rw [if_neg (by omega)]
  obtain ⟨b', e', M⟩ := NumaMigrate.C55_chain_partial (nodes := h.nodes) (target := k) b hc (by omega) (by omega) hl
  refine ⟨b', ?_, M⟩
  unfold migrateChain
  rw [e, Outcome.ok_bind]
  simp only
  rw [hnode, if_pos ⟨hsrc, by omega⟩, hm, e', Outcome.ok_bind]
  rfl

/-- **C60** is false of the code: the migration of a thread that was moved to another node, and is bound to it, changes nothing
as long as its chain is on the default source (which is where all chains begin). -/
theorem C60_refuted_migrate {h : Hw} {o : Opt} {st : BaseInit.St} {set : List Nat} {cnt chain k : Nat} {noRegion : Bool}
    {src : Option Nat} {l : List (Option (Nat × Nat × Nat))} (b : Binding) (hb : BoundTo h k) (hs : Set h.nodes set)
    (hr : o.rr = false) (hsrc : src = none ∨ src = some 128) :
    migrateChain h o st set cnt noRegion chain src l b = .ok (b, src, cnt) := by
  unfold migrateChain
  rw [C60_refuted_bound hb hs hr, Outcome.ok_bind]
  simp only
  have h1 : nodeOf h 128 = -1 := by unfold nodeOf; rw [if_pos (.inl rfl)]
  rw [h1, if_neg]
  · rfl
  · rintro ⟨h2, _⟩
    rcases hsrc with rfl | rfl
    · exact h2 rfl
    · exact h2 h1

/-- **C60** is false of the code: the migration of a chain that is on the source of a node dereferences NULL, because "no
node" is -1 in a source, and the code tests for 128. -/
theorem C60_refuted_unbind {h : Hw} {o : Opt} {st : BaseInit.St} {set : List Nat} {cnt chain k i : Nat} {noRegion : Bool}
    {l : List (Option (Nat × Nat × Nat))} (b : Binding) (hb : BoundTo h k) (hs : Set h.nodes set) (h2 : 2 ≤ h.nodes)
    (hr : o.rr = false) (hm : o.mig = true) (hi : i < h.nodes) (hn : h.nodes ≤ 128) (hc : chain ≠ 0) :
    migrateChain h o st set cnt noRegion chain (some i) l b = .ub := by
  unfold migrateChain
  rw [C60_refuted_bound hb hs hr, Outcome.ok_bind]
  simp only
  have h1 : nodeOf h 128 = -1 := by unfold nodeOf; rw [if_pos (.inl rfl)]
  have h3 : (some i).elim (-1) (nodeOf h) = (i : Int) := by
    show nodeOf h i = i
    unfold nodeOf; rw [if_neg (by omega)]
  rw [h1, h3, if_pos ⟨by omega, by omega⟩]
  unfold chainMigrate
  rw [hm, if_pos ⟨rfl, rfl⟩, NumaMigrate.C55_refuted_reset b hc (by omega)]
  rfl

/-- **C60** is false of the code: a chain that has changed its source gives the blocs that it has back to the new source. The
counter of the new source becomes -1, so that no cleanup of it is possible, and none of the old one. -/
theorem C60_refuted_counter {C : Config} {ins ins' : Bool} {m : Mem} {s t : Light} {O : List (Nat × Nat)} {b size : Nat}
    (hs : LHist C ins m s O) (ht : LHist C ins' m t []) (hm : (b, size) ∈ O) :
    ∃ m' t', lightFree C m t b = .ok (m', t') ∧ t'.counter = -1 ∧ lightCleanup m' t' = .abort ∧
      lightCleanup m' s = .abort := by
  obtain ⟨L, I⟩ := ht.inv
  obtain ⟨K, J⟩ := hs.inv
  have h1 : t.lock = false := I.lock
  have h2 : t.counter = 0 := I.cnt
  have hcl : ∀ m', lightCleanup m' s = .abort := by
    intro m'
    unfold lightCleanup
    rw [if_neg (by rw [J.lock]; simp), if_pos]
    rw [J.cnt]
    have := List.length_pos_of_mem hm
    omega
  have key : ∀ m' t', t'.lock = false → t'.counter = -1 → lightCleanup m' t' = .abort := by
    intro m' t' g1 g2
    unfold lightCleanup
    rw [if_neg (by rw [g1]; simp), if_pos (by rw [g2]; omega)]
  unfold lightFree
  simp only
  split
  · unfold lightReg
    rw [if_neg (by rw [h1]; simp), Outcome.ok_bind]
    exact ⟨_, _, rfl, by simp only [h2]; rfl, key _ _ h1 (by simp only [h2]; rfl), hcl _⟩
  · exact ⟨_, _, rfl, by simp only [h2]; rfl, key _ _ h1 (by simp only [h2]; rfl), hcl _⟩

/-! ## High bandwidth memory -/

theorem mcdram_go : ∀ (l : List (Option String)) (i : Nat) (res : Int),
    (mcdram.go l i res = res ∧ some "MCDRAM" ∉ l) ∨
    ∃ k : Nat, mcdram.go l i res = ((i + k : Nat) : Int) ∧ l[k]? = some (some "MCDRAM") ∧
      ∀ j, k < j → l[j]? ≠ some (some "MCDRAM")
  | [], _, _ => .inl ⟨rfl, by simp⟩
  | none :: l, i, res => by
    rcases mcdram_go l (i + 1) res with ⟨h1, h2⟩ | ⟨k, h1, h2, h3⟩
    · exact .inl ⟨h1, by simp [h2]⟩
    · refine .inr ⟨k + 1, ?_, by simpa using h2, fun j hj => ?_⟩
      · unfold mcdram.go; rw [h1]; congr 1; omega
      · cases j with
        | zero => omega
        | succ j => simpa using h3 j (by omega)
  | some t :: l, i, res => by
    rcases mcdram_go l (i + 1) (if t = "MCDRAM" then i else res) with ⟨h1, h2⟩ | ⟨k, h1, h2, h3⟩
    · by_cases ht : t = "MCDRAM"
      · refine .inr ⟨0, ?_, by simp [ht], fun j hj => ?_⟩
        · unfold mcdram.go; rw [h1, if_pos ht]; rfl
        · cases j with
          | zero => omega
          | succ j =>
            intro h
            rw [List.getElem?_cons_succ] at h
            exact h2 (List.mem_of_getElem? h)
      · refine .inl ⟨?_, ?_⟩
        · unfold mcdram.go; rw [h1, if_neg ht]
        · intro hm
          rcases List.mem_cons.1 hm with hm | hm
          · exact ht (Option.some.inj hm).symm
          · exact h2 hm
    · refine .inr ⟨k + 1, ?_, by simpa using h2, fun j hj => ?_⟩
      · unfold mcdram.go; rw [h1]; congr 1; omega
      · cases j with
        | zero => omega
        | succ j => simpa using h3 j (by omega)

/-- **C61.** On a machine with at most 128 nodes `sctk_hbw_malloc` never ends the program for its choice of a node: it is served
by the chain of the last node of MCDRAM if there is one, else by that of node 0, or by malloc on a machine without nodes. -/
theorem C61_hbw {l : List (Option String)} (hl : l.length ≤ 128) :
    (∃ k : Nat, hbwIndex l = .ok (some k) ∧ l[k]? = some (some "MCDRAM") ∧ ∀ j, k < j → l[j]? ≠ some (some "MCDRAM")) ∨
    (some "MCDRAM" ∉ l ∧ l ≠ [] ∧ hbwIndex l = .ok (some 0)) ∨ (l = [] ∧ hbwIndex l = .ok none) := by
  unfold hbwIndex mcdram
  simp only
  rcases mcdram_go l 0 (-1) with ⟨h1, h2⟩ | ⟨k, h1, h2, h3⟩
  · rw [h1, if_pos rfl]
    cases l with
    | nil => exact .inr (.inr ⟨rfl, rfl⟩)
    | cons a l =>
      refine .inr (.inl ⟨h2, by simp, ?_⟩)
      unfold OnNode.nodeIndex
      simp
  · refine .inl ⟨k, ?_, h2, h3⟩
    have hk : k < l.length := (List.getElem?_eq_some_iff.1 h2).1
    rw [h1, Nat.zero_add, if_neg (by omega)]
    unfold OnNode.nodeIndex
    rw [if_pos (by simp; intro h; subst h; simp at hk), if_pos (by omega), if_pos (by omega)]
    simp

/-! ## Concrete cases -/

/-- A machine with 2 nodes of 4 cores; the thread is bound to the cores 4 and 5, of node 1. -/
def two : Hw := ⟨2, (true, {0, 1}), (true, {0, 1, 2, 3, 4, 5, 6, 7}), (true, {4, 5}), fun b => b.image (· / 4)⟩

/-- A failure that leaves the cores in the bitmap: the only way to get a node. -/
def failing : Hw := { two with cpubind := (false, {4, 5}) }

example : firstBit {7, 3, 5} = .ok 3 := by
  obtain ⟨k, e, h1, h2⟩ := C60_first (b := {7, 3, 5}) (by simp)
  have := h2 3 (by simp)
  have : k = 3 := by simp at h1; omega
  rw [e, this]; rfl

theorem two_bound : BoundTo two 1 := ⟨rfl, by decide⟩

/-- The thread gets the default source, and its migration does nothing. -/
example : localSource two ⟨true, false, true⟩ .numa [1, 0, 128] 0 false = .ok (128, 0) :=
  C60_refuted_bound two_bound (set_start 2 false) rfl false

example (b : Binding) : migrateChain two ⟨true, false, true⟩ .numa [1, 0, 128] 0 false 8192 (some 128)
    [some (4194304, 2097152, 8192)] b = .ok (b, some 128, 0) :=
  C60_refuted_migrate b two_bound (set_start 2 false) rfl (.inr rfl)

/-- The option is off: the answer of hwloc does not matter. -/
example : localSource failing ⟨false, false, true⟩ .numa [1, 0, 128] 0 false = .ok (128, 0) :=
  C60_default (set_start 2 false) rfl (.inl rfl)

/-- With the round robin it gets source 0. -/
example : localSource two ⟨true, true, true⟩ .numa [1, 0, 128] 0 false = .ok (0, 1) :=
  C60_refuted_robin (set_start 2 true) (by decide) (by decide) rfl

/-- The migration of a chain on the source of node 0. -/
example (b : Binding) : migrateChain two ⟨true, false, true⟩ .numa [1, 0, 128] 0 false 8192 (some 0)
    [some (4194304, 2097152, 8192)] b = .ub :=
  C60_refuted_unbind b two_bound (set_start 2 false) (by decide) rfl rfl (by decide) (by decide) (by decide)

example : Clean two := fun h => by cases h

theorem failing_node : initOnNode failing = .ok (1 : Nat) := by
  rw [initOnNode_eq, if_neg (by simp [failing])]
  have : failing.toNodes failing.cpubind.2 = {1} := by decide
  rw [this, single_singleton]

example (b : Binding) : ∃ b', migrateChain failing ⟨true, false, true⟩ .numa [1, 0, 128] 0 false 8192 (some 128)
    [some (4194304, 2097152, 8192)] b = .ok (b', some 1, 0) ∧
    Moved (pagesOf 8192 1680 ∪ chainPages 8192 [some (4194304, 2097152, 8192)]) (1 : Nat) b b' :=
  C60_migrate_partial b (set_start 2 false) (by decide) (by decide) failing_node (by decide) rfl rfl rfl (by decide) (by decide)
    (fun x z h => by simp at h; omega)

example : ∃ i c, localSource failing ⟨true, false, true⟩ .numa [1, 0, 128] 0 false = .ok (i, c) ∧ i ∈ [1, 0, 128] ∧
    (false = true → c < 2) :=
  C60_source_partial (h := failing) (o := ⟨true, false, true⟩) (set_start 2 false) (by decide)
    (fun k hk => by
      have h1 : failing.toNodes failing.cpubind.2 = {1} := by decide
      rw [h1] at hk
      have := Finset.singleton_inj.1 hk
      show k < 2
      omega) (fun h => by cases h) false

/-- A bloc of one source is given back to another one. -/
example (m : Mem) (C : Config) : ∃ m' s p t, LHist C false m' s [(p, MB2)] ∧ LHist C false m' t [] ∧
    ∃ m'' t', lightFree C m' t p = .ok (m'', t') ∧ t'.counter = -1 := by
  obtain ⟨m', s, p, H, _⟩ := hist_one m C
  have H' : LHist C false m' (Light.init s.os) [] := .init m' s.os
  obtain ⟨m'', t', e, h, _⟩ := C60_refuted_counter H H' (b := p) (size := MB2) (by simp)
  exact ⟨m', s, p, _, H, H', m'', t', e, h⟩

/-- Four nodes, two of them MCDRAM. -/
example : hbwIndex [none, some "DRAM", some "MCDRAM", some "MCDRAM"] = .ok (some 3) ∧ hbwIndex [none, none] = .ok (some 0) ∧
    hbwIndex [] = .ok none := ⟨rfl, rfl, rfl⟩

end NodeSelect
end MpcAlloc
