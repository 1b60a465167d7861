import Verif.NumaStat

/-
Migration of memory to a NUMA node (build with hwloc; sctk_alloc_topology.c, sctk_allocator.c,
sctk_alloc_light_mm_source.c) and property C55.
-/

namespace MpcAlloc
namespace NumaMigrate

open NumaStat (pagesOf chainPages)

/-- The node to which each page is bound. -/
abbrev Binding := Nat → Int

/-- `hwloc_set_area_membind_nodeset` and `hwloc_set_area_membind` with the node of an object: the pages of the area are
bound to it. A refusal (reported by a warning only) is left out. -/
def setArea (b : Binding) (addr size : Nat) (node : Int) : Binding :=
  fun q => if q ∈ pagesOf addr size then node else b q

/-- `sctk_alloc_migrate_numa_mem`, sctk_alloc_topology.c 378-447. `mig`: the option `numa_migration`; `nodes`: the number of
nodes of the machine. For -1 and for nodes that do not exist hwloc returns no object, whose field `nodeset` is read
in both branches. Addresses and sizes are taken without wrapping around. -/
def migrateMem (mig : Bool) (nodes : Nat) (b : Binding) (addr size : Nat) (target : Int) : Outcome Binding :=
  if addr = 0 ∨ size = 0 ∨ mig = false then .ok b
  else
    let size := size + addr % 4096
    let addr := addr - addr % 4096
    let size := if size % 4096 ≠ 0 then size + (4096 - size % 4096) else size
    if 0 ≤ target ∧ target < nodes then .ok (setArea b addr size target) else .ub

/-- `sctk_alloc_chain_numa_migrate_content`, sctk_allocator.c 2618-2658. The entries of the tables of the regions as in
`NumaStat.chainStat`; `noRegion`: flag of the chain. -/
def migrateContent (mig : Bool) (nodes : Nat) (noRegion : Bool) (chain : Nat) (target : Int)
    (entries : List (Option (Nat × Nat × Nat))) (b : Binding) : Outcome Binding :=
  if mig = false then .ok b
  else if noRegion then .abort
  else go entries b
where
  go : List (Option (Nat × Nat × Nat)) → Binding → Outcome Binding
    | [], b => .ok b
    | none :: l, b => go l b
    | some (bloc, size, owner) :: l, b => do
      let b' ← (if owner = chain then migrateMem mig nodes b bloc size target else .ok b)
      go l b'

/-- `sctk_alloc_chain_numa_migrate`, 2822-2843, without the change of the source. Line 2836 tests the argument of the
structure, not the one of the content, which is not used. -/
def chainMigrate (mig : Bool) (nodes : Nat) (noRegion : Bool) (chain : Nat) (target : Int) (doStruct _doContent : Bool)
    (entries : List (Option (Nat × Nat × Nat))) (b : Binding) : Outcome Binding := do
  let b ← (if doStruct ∧ mig then migrateMem mig nodes b chain 1680 target else .ok b)
  if doStruct ∧ mig then migrateContent mig nodes noRegion chain target entries b else .ok b

/-- `sctk_alloc_mm_source_light_migrate`, sctk_alloc_light_mm_source.c 615-655: the node of the source and its cached blocs.
The node is stored for `SCTK_ALLOC_NOT_BINDED` (-1) only. -/
def lightMigrate (mig : Bool) (nodes : Nat) (node : Int) (cache : List (Nat × Nat)) (target : Int) (b : Binding) :
    Outcome (Int × Binding) :=
  if mig = false then .ok (node, b)
  else if target = node then .ok (node, b)
  else if target = -1 then .ok (-1, b)
  else do
    let b' ← go cache b
    return (node, b')
where
  go : List (Nat × Nat) → Binding → Outcome Binding
    | [], b => .ok b
    | (bloc, size) :: l, b => do
      let b' ← migrateMem mig nodes b bloc size target
      go l b'

/-! ## Specification -/

/-- The pages of `P` are bound to the node, the others as before. -/
def Moved (P : Finset Nat) (node : Int) (b b' : Binding) : Prop := ∀ q, b' q = if q ∈ P then node else b q

/-! ## Lemmas -/

theorem Moved.trans {P Q : Finset Nat} {n : Int} {b b1 b2 : Binding} (h1 : Moved P n b b1) (h2 : Moved Q n b1 b2) :
    Moved (P ∪ Q) n b b2 := by
  intro q
  rw [h2 q, h1 q]
  by_cases a : q ∈ P <;> by_cases c : q ∈ Q <;> simp [a, c]

/-- Rounding to whole pages gives the pages of the segment. -/
theorem pagesOf_round {addr size : Nat} (h : size ≠ 0) :
    pagesOf (addr - addr % 4096) (if (size + addr % 4096) % 4096 ≠ 0 then size + addr % 4096 + (4096 - (size + addr % 4096) % 4096)
      else size + addr % 4096) = pagesOf addr size := by
  ext q
  simp only [pagesOf, Finset.mem_image, Finset.mem_range]
  constructor
  · rintro ⟨i, hi, rfl⟩
    by_cases h1 : i < addr % 4096
    · exact ⟨0, by omega, by omega⟩
    · by_cases h2 : i - addr % 4096 < size
      · exact ⟨i - addr % 4096, h2, by omega⟩
      · refine ⟨size - 1, by omega, ?_⟩
        split at hi <;> omega
  · rintro ⟨i, hi, rfl⟩
    refine ⟨i + addr % 4096, ?_, by omega⟩
    split <;> omega

theorem migrateMem_moved {nodes : Nat} {addr size : Nat} {target : Int} (b : Binding) (ha : addr ≠ 0) (hs : size ≠ 0)
    (h0 : 0 ≤ target) (h1 : target < nodes) :
    ∃ b', migrateMem true nodes b addr size target = .ok b' ∧ Moved (pagesOf addr size) target b b' := by
  unfold migrateMem
  rw [if_neg (by simp [ha, hs])]
  simp only
  rw [if_pos ⟨h0, h1⟩]
  refine ⟨_, rfl, fun q => ?_⟩
  unfold setArea
  rw [pagesOf_round hs]

theorem migrateContent_go {nodes chain : Nat} {target : Int} (h0 : 0 ≤ target) (h1 : target < nodes) :
    ∀ (l : List (Option (Nat × Nat × Nat))) (b : Binding),
      (∀ bloc size, some (bloc, size, chain) ∈ l → bloc ≠ 0 ∧ size ≠ 0) →
      ∃ b', migrateContent.go true nodes chain target l b = .ok b' ∧ Moved (chainPages chain l) target b b'
  | [], b, _ => ⟨b, rfl, fun q => by simp [chainPages]⟩
  | none :: l, b, h => migrateContent_go h0 h1 l b fun x z hm => h x z (List.mem_cons_of_mem _ hm)
  | some (bloc, size, owner) :: l, b, h => by
    unfold migrateContent.go chainPages
    by_cases ho : owner = chain
    · subst ho
      rw [if_pos rfl, if_pos rfl]
      obtain ⟨g1, g2⟩ := h bloc size List.mem_cons_self
      obtain ⟨b1, e1, m1⟩ := migrateMem_moved b g1 g2 h0 h1
      obtain ⟨b2, e2, m2⟩ := migrateContent_go h0 h1 l b1 fun x z hm => h x z (List.mem_cons_of_mem _ hm)
      exact ⟨b2, by rw [e1]; exact e2, m1.trans m2⟩
    · rw [if_neg ho, if_neg ho]
      exact migrateContent_go h0 h1 l b fun x z hm => h x z (List.mem_cons_of_mem _ hm)

theorem lightMigrate_go {nodes : Nat} {target : Int} (h0 : 0 ≤ target) (h1 : target < nodes) :
    ∀ (l : List (Nat × Nat)) (b : Binding), (∀ x ∈ l, x.1 ≠ 0 ∧ x.2 ≠ 0) →
      ∃ b', lightMigrate.go true nodes target l b = .ok b' ∧
        Moved (l.foldr (fun x P => pagesOf x.1 x.2 ∪ P) ∅) target b b'
  | [], b, _ => ⟨b, rfl, fun q => by simp⟩
  | (bloc, size) :: l, b, h => by
    unfold lightMigrate.go
    obtain ⟨g1, g2⟩ := h (bloc, size) List.mem_cons_self
    obtain ⟨b1, e1, m1⟩ := migrateMem_moved b g1 g2 h0 h1
    obtain ⟨b2, e2, m2⟩ := lightMigrate_go h0 h1 l b1 fun x hm => h x (List.mem_cons_of_mem _ hm)
    exact ⟨b2, by rw [e1]; exact e2, m1.trans m2⟩

/-! ## Properties -/

/-- **C55** (segments; partial: existing nodes). The pages that have a byte of the segment are bound to the node, and no
others, whatever the alignment of the segment. -/
theorem C55_segment_partial {nodes : Nat} {addr size : Nat} {target : Int} (b : Binding) (ha : addr ≠ 0) (hs : size ≠ 0)
    (h0 : 0 ≤ target) (h1 : target < nodes) :
    ∃ b', migrateMem true nodes b addr size target = .ok b' ∧ Moved (pagesOf addr size) target b b' :=
  migrateMem_moved b ha hs h0 h1

/-- **C55** (chains; partial: existing nodes, and the migration of structure and content together). The pages of the
structure and of the blocs of the chain are bound to the node, and no others. -/
theorem C55_chain_partial {nodes chain : Nat} {target : Int} {l : List (Option (Nat × Nat × Nat))} (b : Binding)
    (hc : chain ≠ 0) (h0 : 0 ≤ target) (h1 : target < nodes)
    (hl : ∀ bloc size, some (bloc, size, chain) ∈ l → bloc ≠ 0 ∧ size ≠ 0) :
    ∃ b', chainMigrate true nodes false chain target true true l b = .ok b' ∧
      Moved (pagesOf chain 1680 ∪ chainPages chain l) target b b' := by
  obtain ⟨b1, e1, m1⟩ := migrateMem_moved (size := 1680) b hc (by omega) h0 h1
  obtain ⟨b2, e2, m2⟩ := migrateContent_go h0 h1 l b1 hl
  refine ⟨b2, ?_, m1.trans m2⟩
  unfold chainMigrate
  rw [if_pos ⟨rfl, rfl⟩, e1, Outcome.ok_bind, if_pos ⟨rfl, rfl⟩]
  unfold migrateContent
  rw [if_neg (by simp), if_neg (by simp), e2]

/-- **C55** (cached blocs of a source; partial: existing nodes). They are bound to the node. -/
theorem C55_source_partial {nodes : Nat} {node target : Int} {l : List (Nat × Nat)} (b : Binding) (h0 : 0 ≤ target)
    (h1 : target < nodes) (hn : target ≠ node) (hl : ∀ x ∈ l, x.1 ≠ 0 ∧ x.2 ≠ 0) :
    ∃ n b', lightMigrate true nodes node l target b = .ok (n, b') ∧
      Moved (l.foldr (fun x P => pagesOf x.1 x.2 ∪ P) ∅) target b b' := by
  obtain ⟨b', e, m⟩ := lightMigrate_go h0 h1 l b hl
  refine ⟨node, b', ?_, m⟩
  unfold lightMigrate
  rw [if_neg (by simp), if_neg hn, if_neg (by omega), e]
  rfl

/-- A chain at 8192 with a bloc of 2 MB, to node 1 of 2. -/
example : ∃ b', chainMigrate true 2 false 8192 1 true true [none, some (4194304, 2097152, 8192)] (fun _ => 0) = .ok b' ∧
    b' 2 = 1 ∧ b' 3 = 0 ∧ b' 1024 = 1 := by
  obtain ⟨b', e, m⟩ := C55_chain_partial (nodes := 2) (chain := 8192) (target := 1)
    (l := [none, some (4194304, 2097152, 8192)]) (fun _ => 0) (by omega) (by omega) (by omega)
    (fun x z h => by simp at h; omega)
  refine ⟨b', e, ?_, ?_, ?_⟩
  · rw [m 2, if_pos]
    exact Finset.mem_union_left _ (Finset.mem_image.2 ⟨0, Finset.mem_range.2 (by omega), rfl⟩)
  · rw [m 3, if_neg]
    simp only [chainPages, if_true, Finset.mem_union, pagesOf, Finset.mem_image, Finset.mem_range, Finset.notMem_empty, or_false]
    rintro (⟨i, hi, h⟩ | ⟨i, hi, h⟩) <;> omega
  · rw [m 1024, if_pos]
    refine Finset.mem_union_right _ ?_
    simp only [chainPages, if_true]
    exact Finset.mem_union_left _ (Finset.mem_image.2 ⟨0, Finset.mem_range.2 (by omega), rfl⟩)

/-- **C55** is false of the code: the migration of the content alone moves nothing. -/
theorem C55_refuted_content (nodes chain : Nat) (target : Int) (l : List (Option (Nat × Nat × Nat))) (b : Binding) :
    chainMigrate true nodes false chain target false true l b = .ok b := by
  unfold chainMigrate
  rw [if_neg (by simp), Outcome.ok_bind, if_neg (by simp)]

/-- **C55** is false of the code: the migration of the structure alone moves the content too. -/
theorem C55_refuted_struct (nodes chain : Nat) (target : Int) (l : List (Option (Nat × Nat × Nat))) (b : Binding) :
    chainMigrate true nodes false chain target true false l b = chainMigrate true nodes false chain target true true l b := rfl

/-- **C55** is false of the code: to reset the binding (node -1), as the comment allows, dereferences NULL. -/
theorem C55_refuted_reset {nodes addr size : Nat} (b : Binding) (ha : addr ≠ 0) (hs : size ≠ 0) :
    migrateMem true nodes b addr size (-1) = .ub := by
  unfold migrateMem
  rw [if_neg (by simp [ha, hs])]
  simp only
  rw [if_neg (by omega)]

/-- **C55** is false of the code: a source that was moved keeps its old node (and the node set made from it, to which a
strict source binds the memory that it asks for later). -/
theorem C55_refuted_source {nodes : Nat} {node target n : Int} {l : List (Nat × Nat)} {b b' : Binding}
    (e : lightMigrate true nodes node l target b = .ok (n, b')) (ht : target ≠ -1) : n = node := by
  unfold lightMigrate at e
  rw [if_neg (by simp)] at e
  split at e
  · cases e; rfl
  · obtain ⟨_, _, e⟩ := Outcome.bind_eq_ok e
    cases e; rfl

example : ∃ r, lightMigrate true 2 0 [(4194304, 2097152)] 1 (fun _ => 0) = .ok r ∧ r.1 = 0 := ⟨_, rfl, rfl⟩

end NumaMigrate
end MpcAlloc
