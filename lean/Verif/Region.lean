import Verif.Header
import Verif.SizeClass

/-
Regions: the table that maps addresses to macro blocs (/repo/src/sctk_allocator.c 2189-2500,
sctk_alloc_region.h).
-/

namespace MpcAlloc

/-- `SCTK_REGION_SIZE` = 1 TB, sctk_alloc_common.h 98. -/
notation "TB1" => (1099511627776 : Nat)

/-- The global array `sctk_alloc_glob_regions` (256 pointers to arrays of 524288 entries).
Simplification: the arrays are kept outside of the byte memory; entry `e` of region `r` is
`ent (r * 524288 + e)`, that is, the entry of address `a` has index `a / 2 MB`. `mapped r` tells
whether the pointer of region `r` is set. -/
structure Regions where
  mapped : Nat → Bool
  ent : Nat → Nat

/-- No region yet (zero initialised global, sctk_allocator.c 2476-2485). -/
def Regions.empty : Regions := ⟨fun _ => false, fun _ => 0⟩

/-- `sctk_alloc_region_setup`, sctk_allocator.c 2209-2242: map a header (filled with zeros by `mmap`)
if the region has none. Simplification: the `mmap` of a region header is assumed to succeed (the code
aborts otherwise). -/
def regionSetup (R : Regions) (id : Nat) : Regions :=
  if R.mapped id then R
  else ⟨fun k => if k = id then true else R.mapped k, fun k => if k / 524288 = id then 0 else R.ent k⟩

/-- `sctk_alloc_region_get_entry`, sctk_allocator.c 2263-2275, with `sctk_alloc_region_get_id` 2194-2199
and `sctk_alloc_region_get` 2251-2254: the table (a missing region is set up) and the index of the
entry. A region number above 255 reads outside of the array (the check is an `assert`). -/
def regionGetEntry (R : Regions) (addr : Nat) : Outcome (Regions × Nat) :=
  let id := addr / TB1
  if id ≥ 256 then .ub
  else .ok (regionSetup R id, id * 524288 + addr % TB1 / MB2)

/-- Loop of `sctk_alloc_region_set_entry`, sctk_allocator.c 2329-2338. -/
def regionSetLoop (m : Mem) (R : Regions) (bloc ptr : Nat) : Outcome Regions :=
  if ptr < add64 bloc (hSize m bloc) then do
    let (R, i) ← regionGetEntry R ptr
    if R.ent i ≠ 0 then .abort else
    regionSetLoop m { R with ent := fun k => if k = i then bloc else R.ent k } bloc (add64 ptr MB2)
  else .ok R
partial_fixpoint

/-- `sctk_alloc_region_set_entry`, sctk_allocator.c 2307-2339: writes the owner in the macro bloc
(`macro_bloc->chain`, offset 16) and fills the entries. -/
def regionSetEntry (m : Mem) (R : Regions) (chain bloc : Nat) : Outcome (Mem × Regions) := do
  let m := writeLE m (bloc + 16) 8 chain
  let R ← regionSetLoop m R bloc bloc
  return (m, R)

/-- `sctk_alloc_region_unset_entry`, sctk_allocator.c 2281-2298 (loop). -/
def regionUnsetLoop (m : Mem) (R : Regions) (bloc ptr : Nat) : Outcome Regions :=
  if ptr < add64 bloc (hSize m bloc) then do
    let (R, i) ← regionGetEntry R ptr
    let R := if R.ent i = bloc then { R with ent := fun k => if k = i then 0 else R.ent k } else R
    regionUnsetLoop m R bloc (add64 ptr MB2)
  else .ok R
partial_fixpoint

/-- `sctk_alloc_region_unset_entry`, sctk_allocator.c 2281-2298. -/
def regionUnsetEntry (m : Mem) (R : Regions) (bloc : Nat) : Outcome Regions :=
  regionUnsetLoop m R bloc bloc

/-- `sctk_alloc_region_get_macro_bloc`, sctk_allocator.c 2391-2416: the macro bloc containing `ptr`,
0 if none. -/
def regionGetMacroBloc (m : Mem) (R : Regions) (ptr : Nat) : Outcome (Regions × Nat) := do
  let (R, i) ← regionGetEntry R ptr
  if (R.ent i = 0 ∨ R.ent i > ptr) ∧ ptr > MB2 then
    let (R, j) ← regionGetEntry R (sub64 ptr MB2)
    let b := R.ent j
    if b = 0 then return (R, 0)
    else if ptr > b ∧ ptr < add64 b (hSize m b) then return (R, b)
    else return (R, 0)
  else return (R, R.ent i)

/-- `sctk_alloc_region_del_chain` for a non-NULL chain, sctk_allocator.c 2363-2385: forget the
entries of one region whose macro bloc belongs to the chain. -/
def regionDelChain (m : Mem) (R : Regions) (id chain : Nat) : Regions :=
  if R.mapped id then
    { R with ent := fun k => if k / 524288 = id ∧ R.ent k ≠ 0 ∧ readLE m (R.ent k + 16) 8 = chain then 0
                              else R.ent k }
  else R

/-! ## Lemmas -/

/-- Index of the entry of an address. -/
theorem region_idx (a : Nat) : a / TB1 * 524288 + a % TB1 / MB2 = a / MB2 := by omega

/-- Regions that were never mapped have no entry set. -/
def Regions.OK (R : Regions) : Prop := ∀ k, R.mapped (k / 524288) = false → R.ent k = 0

theorem Regions.empty_ok : Regions.empty.OK := fun _ _ => rfl

theorem regionSetup_ent {R : Regions} (h : R.OK) (id : Nat) : (regionSetup R id).ent = R.ent := by
  unfold regionSetup
  split
  · rfl
  · rename_i hm
    funext k
    simp only
    split
    · rename_i e; subst e
      exact (h k (by simpa using hm)).symm
    · rfl

theorem regionSetup_ok {R : Regions} (h : R.OK) (id : Nat) : (regionSetup R id).OK := by
  intro k hk
  rw [regionSetup_ent h]
  unfold regionSetup at hk
  split at hk
  · exact h k hk
  · simp only at hk
    split at hk
    · cases hk
    · exact h k hk

theorem regionSetup_mapped (R : Regions) (id : Nat) : (regionSetup R id).mapped id = true := by
  unfold regionSetup
  split
  · assumption
  · simp

theorem regionGetEntry_ok {R : Regions} (h : R.OK) {a : Nat} (ha : a < 281474976710656) :
    ∃ R', regionGetEntry R a = .ok (R', a / MB2) ∧ R'.OK ∧ R'.ent = R.ent ∧
      R'.mapped (a / MB2 / 524288) = true := by
  refine ⟨regionSetup R (a / TB1), ?_, regionSetup_ok h _, regionSetup_ent h _, ?_⟩
  · unfold regionGetEntry
    simp only
    rw [if_neg (by omega), region_idx]
  · have : a / MB2 / 524288 = a / TB1 := by omega
    rw [this]; exact regionSetup_mapped _ _

/-- Entries after registering a bloc. -/
def entSet (ent : Nat → Nat) (lo hi b : Nat) : Nat → Nat := fun k => if lo ≤ k ∧ k < hi then b else ent k

theorem regionSetLoop_ok {m : Mem} {bloc sz : Nat} (hs : hSize m bloc = sz) (hlt : bloc + sz ≤ 281474976710656)
    (n : Nat) : ∀ (R : Regions) (ptr : Nat), R.OK → bloc + sz ≤ ptr + n * MB2 →
      ptr + n * MB2 < bloc + sz + MB2 →
      (∀ k, ptr / MB2 ≤ k → k < ptr / MB2 + n → R.ent k = 0) →
      ∃ R', regionSetLoop m R bloc ptr = .ok R' ∧ R'.OK ∧
        R'.ent = entSet R.ent (ptr / MB2) (ptr / MB2 + n) bloc := by
  induction n with
  | zero =>
    intro R ptr hR he hb _
    refine ⟨R, ?_, hR, ?_⟩
    · rw [regionSetLoop, hs, add64_eq (by omega), if_neg (by omega)]
    · funext k; unfold entSet; rw [if_neg (by omega)]
  | succ n ih =>
    intro R ptr hR he hb hz
    obtain ⟨R1, h1, ok1, e1, m1⟩ := regionGetEntry_ok hR (a := ptr) (by omega)
    have hz0 : R1.ent (ptr / MB2) = 0 := by rw [e1]; exact hz _ (by omega) (by omega)
    have ok2 : Regions.OK { R1 with ent := fun k => if k = ptr / MB2 then bloc else R1.ent k } := by
      intro k hk
      simp only at hk ⊢
      rw [if_neg, ok1 k hk]
      rintro rfl; rw [m1] at hk; cases hk
    have hd : (ptr + MB2) / MB2 = ptr / MB2 + 1 := by omega
    obtain ⟨R', h2, ok3, e3⟩ := ih _ (ptr + MB2) ok2 (by omega) (by omega) (by
      intro k h1 h2
      simp only
      rw [if_neg (by omega), e1]
      exact hz k (by omega) (by omega))
    refine ⟨R', ?_, ok3, ?_⟩
    · rw [regionSetLoop, hs, add64_eq (by omega), if_pos (by omega), h1]
      simp only [Outcome.ok_bind]
      rw [if_neg (by simpa using hz0), add64_eq (by omega)]
      exact h2
    · rw [e3]
      funext k
      unfold entSet
      simp only [e1, hd]
      grind

/-- Entries after unregistering a bloc. -/
def entUnset (ent : Nat → Nat) (lo hi b : Nat) : Nat → Nat :=
  fun k => if lo ≤ k ∧ k < hi ∧ ent k = b then 0 else ent k

theorem regionUnsetLoop_ok {m : Mem} {bloc sz : Nat} (hs : hSize m bloc = sz) (hlt : bloc + sz ≤ 281474976710656)
    (n : Nat) : ∀ (R : Regions) (ptr : Nat), R.OK → bloc + sz ≤ ptr + n * MB2 →
      ptr + n * MB2 < bloc + sz + MB2 →
      ∃ R', regionUnsetLoop m R bloc ptr = .ok R' ∧ R'.OK ∧
        R'.ent = entUnset R.ent (ptr / MB2) (ptr / MB2 + n) bloc := by
  induction n with
  | zero =>
    intro R ptr hR he hb
    refine ⟨R, ?_, hR, ?_⟩
    · rw [regionUnsetLoop, hs, add64_eq (by omega), if_neg (by omega)]
    · funext k; unfold entUnset; rw [if_neg (by omega)]
  | succ n ih =>
    intro R ptr hR he hb
    obtain ⟨R1, h1, ok1, e1, m1⟩ := regionGetEntry_ok hR (a := ptr) (by omega)
    have hd : (ptr + MB2) / MB2 = ptr / MB2 + 1 := by omega
    have ok2 : Regions.OK (if R1.ent (ptr / MB2) = bloc then
        { R1 with ent := fun k => if k = ptr / MB2 then 0 else R1.ent k } else R1) := by
      intro k hk
      split at hk
      · rename_i hc
        rw [if_pos hc]
        simp only at hk ⊢
        split
        · rfl
        · exact ok1 k hk
      · rename_i hc
        rw [if_neg hc]; exact ok1 k hk
    obtain ⟨R', h2, ok3, e3⟩ := ih _ (ptr + MB2) ok2 (by omega) (by omega)
    refine ⟨R', ?_, ok3, ?_⟩
    · rw [regionUnsetLoop, hs, add64_eq (by omega), if_pos (by omega), h1]
      simp only [Outcome.ok_bind]
      rw [add64_eq (by omega)]
      exact h2
    · rw [e3]
      funext k
      unfold entUnset
      rw [hd]
      split <;> simp only [e1] at * <;> grind

theorem regionSetEntry_ok {m : Mem} {R : Regions} {chain bloc sz : Nat} (hR : R.OK) (hs : hSize m bloc = sz)
    (hlt : bloc + sz ≤ 281474976710656)
    (hz : ∀ k, bloc / MB2 ≤ k → k < bloc / MB2 + (sz + MB2 - 1) / MB2 → R.ent k = 0) :
    ∃ R', regionSetEntry m R chain bloc = .ok (writeLE m (bloc + 16) 8 chain, R') ∧ R'.OK ∧
      R'.ent = entSet R.ent (bloc / MB2) (bloc / MB2 + (sz + MB2 - 1) / MB2) bloc := by
  have hs' : hSize (writeLE m (bloc + 16) 8 chain) bloc = sz := by
    unfold hSize at *; rw [readLE_writeLE_other (by omega)]; exact hs
  obtain ⟨R', h1, h2, h3⟩ := regionSetLoop_ok hs' hlt ((sz + MB2 - 1) / MB2) R bloc hR (by omega) (by omega) hz
  refine ⟨R', ?_, h2, h3⟩
  unfold regionSetEntry
  simp only [h1, Outcome.ok_bind, Outcome.pure_eq]

theorem regionUnsetEntry_ok {m : Mem} {R : Regions} {bloc sz : Nat} (hR : R.OK) (hs : hSize m bloc = sz)
    (hlt : bloc + sz ≤ 281474976710656) :
    ∃ R', regionUnsetEntry m R bloc = .ok R' ∧ R'.OK ∧
      R'.ent = entUnset R.ent (bloc / MB2) (bloc / MB2 + (sz + MB2 - 1) / MB2) bloc :=
  regionUnsetLoop_ok hs hlt ((sz + MB2 - 1) / MB2) R bloc hR (by omega) (by omega)

end MpcAlloc
