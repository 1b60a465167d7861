import Verif.Basic
import Mathlib.Tactic.IntervalCases

/-
Size classes of the thread pools: tables and the two lookup functions
(/repo/src/sctk_allocator.c 87-105, 183-195, 262-431).
-/

namespace MpcAlloc

/-- `SCTK_MACRO_BLOC_SIZE` = 2 MB, /repo/src/sctk_alloc_common.h. -/
notation "MB2" => (2097152 : Nat)

/-- `SCTK_ALLOC_FREE_SIZES`, /repo/src/sctk_allocator.c 87-93. -/
def freeSizes : List Int := [
  32, 64, 96, 128, 160, 192, 224, 256, 288, 320,
  352, 384, 416, 448, 480, 512, 544, 576, 608, 640,
  672, 704, 736, 768, 800, 832, 864, 896, 928, 960,
  992, 1024, 2048, 4096, 8192, 16384, 32768, 65536, 131072, 262144,
  524288, 1048576, 2097152, -1, -1, -1, -1, -1]

/-- `SCTK_ALLOC_MMS_FREE_SIZES`, /repo/src/sctk_allocator.c 95-105. Two commas are missing in the
source (`-1` newline `-1`), so the C compiler reads `-1 -1 = -2` at positions 20 and 43; the
initialiser then has 20 + 1 + 22 + 1 + 4 = 48 values. -/
def mmsFreeSizes : List Int := [
  2097152, 4194304, 8388608, 16777216, 33554432, 67108864, 134217728, 268435456, 536870912,
  1073741824, 2147483648, 4294967296, 8589934592, 17179869184, 34359738368, 68719476736,
  137438953472, 274877906944, 549755813888, 1099511627776,
  -2,
  -1, -1, -1, -1, -1, -1, -1, -1, -1, -1, -1, -1, -1, -1, -1, -1, -1, -1, -1, -1, -1, -1,
  -2,
  -1, -1, -1, -1]

/-- Array access `t[i]` with bounds made explicit: outside of the array is undefined behaviour. -/
def tblGet (t : List Int) (i : Int) : Outcome Int :=
  if 0 ≤ i then
    match t[i.toNat]? with
    | some v => .ok v
    | none => .ub
  else .ub

/-- `sctk_alloc_calc_chunk_size`, sctk_allocator.c 183-195 (64-bit wrap-around addition). -/
def calcChunkSize (user : Nat) : Nat :=
  let s := add64 user 16
  if s ≤ 32 then 32 else s

/-- `sctk_alloc_optimized_log2_size_t`, sctk_allocator.c 262-279: position of the highest set bit
(`bsr`), 0 for 0. `Nat.log2` has the same value for every input. -/
def optimizedLog2 (v : Nat) : Nat := Nat.log2 v

/-- `sctk_alloc_reverse_analytic_free_size`, sctk_allocator.c 290-306. -/
def reverseAnalytic (size : Nat) : Int :=
  if size ≤ 1024 then (size / 32 : Nat) - 1
  else if size > MB2 then 43
  else 32 + (optimizedLog2 (size / 1024) : Nat) - 1

/-- `sctk_alloc_get_free_list_fast`, sctk_allocator.c 367-393: index of the list. -/
def getFreeListFast (t : List Int) (size : Nat) : Outcome Int := do
  let pos := reverseAnalytic size
  let v ← tblGet t pos
  if v < toS size then return pos + 1
  return pos

/-- The loop of `sctk_alloc_get_free_list_slow`, sctk_allocator.c 336-347. `p` is the distance from
the start of the table to `ptr`. `ptr[i-1]` with `i = 0` is read as the entry before `ptr`. -/
def slowLoop (t : List Int) (size : Int) (p seg i : Nat) : Outcome Int := do
  let a ← tblGet t ((p : Int) + i - 1)
  let b ← tblGet t ((p : Int) + i)
  if a ≥ size ∨ b < size then
    if b < size then slowLoop t size (p + i) (seg - i) ((seg - i) / 2)
    else slowLoop t size p i (i / 2)
  else
    return (p : Int) + i
partial_fixpoint

/-- `sctk_alloc_get_free_list_slow`, sctk_allocator.c 317-356. -/
def getFreeListSlow (t : List Int) (nb : Nat) (size : Nat) : Outcome Int := do
  let a ← tblGet t 0
  if a ≥ toS size then return 0
  slowLoop t (toS size) 0 nb (nb / 2)

/-- `sctk_alloc_get_free_list`, sctk_allocator.c 404-415. -/
def getFreeList (t : List Int) (nb : Nat) (analytic : Bool) (size : Nat) : Outcome Int :=
  if analytic then getFreeListFast t size else getFreeListSlow t nb size

/-- List chosen by `sctk_alloc_free_list_insert` for a chunk of the given size,
sctk_allocator.c 487-495 with `sctk_alloc_get_list_class` 423-431. -/
def insertIdx (t : List Int) (nb : Nat) (analytic : Bool) (size : Nat) : Outcome Int := do
  let i ← getFreeList t nb analytic size
  let c ← tblGet t i
  if i ≠ 0 ∧ c ≠ -1 ∧ c ≠ toS size then return i - 1
  return i

/-! ## Facts on the table -/

/-- Closed form of the first 43 classes. -/
def ftbl (i : Nat) : Nat := if i < 32 then 32 * (i + 1) else 2 ^ (i - 21)

theorem freeSizes_get {i : Nat} (h : i ≤ 42) : tblGet freeSizes (i : Int) = .ok (ftbl i : Nat) := by
  interval_cases i <;> rfl

theorem freeSizes_get_tail {i : Nat} (h : 43 ≤ i) (h' : i ≤ 47) :
    tblGet freeSizes (i : Int) = .ok (-1) := by
  interval_cases i <;> rfl

theorem ftbl_succ_lt {i : Nat} : ftbl i < ftbl (i + 1) := by
  unfold ftbl
  by_cases h : i < 31
  · rw [if_pos (by omega), if_pos (by omega)]; omega
  · by_cases h2 : i = 31
    · subst h2; decide
    · rw [if_neg (by omega), if_neg (by omega)]
      exact Nat.pow_lt_pow_right (by decide) (by omega)

theorem ftbl_mono {i j : Nat} (h : i ≤ j) : ftbl i ≤ ftbl j := by
  induction h with
  | refl => exact Nat.le_refl _
  | step _ ih => exact Nat.le_trans ih (Nat.le_of_lt ftbl_succ_lt)

theorem ftbl_lt {i j : Nat} (h : i < j) : ftbl i < ftbl j :=
  Nat.lt_of_lt_of_le ftbl_succ_lt (ftbl_mono h)

theorem ftbl_ge (i : Nat) : 32 ≤ ftbl i := by
  have := ftbl_mono (Nat.zero_le i)
  simpa [ftbl] using this

/-- Specification of the class of a size: the smallest class that is at least the size. -/
def IsClass (size k : Nat) : Prop :=
  k ≤ 42 ∧ size ≤ ftbl k ∧ ∀ j, j < k → ftbl j < size

theorem IsClass.unique {s k k' : Nat} (h : IsClass s k) (h' : IsClass s k') : k = k' := by
  rcases Nat.lt_trichotomy k k' with c | c | c
  · have := h'.2.2 k c; have := h.2.1; omega
  · exact c
  · have := h.2.2 k' c; have := h'.2.1; omega

theorem getFreeListFast_small {size : Nat} (h1 : 32 ≤ size) (h2 : size ≤ MB2) :
    ∃ k : Nat, getFreeListFast freeSizes size = .ok (k : Int) ∧ IsClass size k := by
  have hs : toS size = (size : Int) := toS_eq (by omega)
  unfold getFreeListFast reverseAnalytic
  by_cases hc : size ≤ 1024
  · simp only [hc, if_true]
    have e : ((size / 32 : Nat) : Int) - 1 = ((size / 32 - 1 : Nat) : Int) := by omega
    rw [e, freeSizes_get (by omega), hs]
    have ev : ftbl (size / 32 - 1) = 32 * (size / 32) := by
      unfold ftbl; rw [if_pos (by omega)]; omega
    by_cases hl : ((ftbl (size / 32 - 1) : Nat) : Int) < (size : Int)
    · have hlt : 32 * (size / 32) < size := by rw [ev] at hl; omega
      have h31 : size / 32 < 32 := by omega
      refine ⟨size / 32, ?_, by omega, ?_, ?_⟩
      · simp only [Outcome.ok_bind, hl, if_true, Outcome.pure_eq]
        congr 1; omega
      · unfold ftbl; rw [if_pos h31]; omega
      · intro j hj
        unfold ftbl; rw [if_pos (by omega)]; omega
    · have hge : size = 32 * (size / 32) := by rw [ev] at hl; omega
      refine ⟨size / 32 - 1, ?_, by omega, ?_, ?_⟩
      · simp only [Outcome.ok_bind, hl, if_false, Outcome.pure_eq]
      · rw [ev]; omega
      · intro j hj
        unfold ftbl; rw [if_pos (by omega)]; omega
  · simp only [hc, if_false, if_neg (show ¬ size > MB2 by omega)]
    unfold optimizedLog2
    have hne : size / 1024 ≠ 0 := by omega
    have hlo := Nat.log2_self_le hne
    have hhi := (Nat.log2_lt (k := (size/1024).log2 + 1) hne).1 (Nat.lt_succ_self _)
    have hl11 : (size / 1024).log2 < 12 := (Nat.log2_lt hne).2 (by omega)
    obtain ⟨l, hl⟩ : ∃ l, l = (size/1024).log2 := ⟨_, rfl⟩
    rw [← hl] at hlo hhi hl11 ⊢
    have e : (32 : Int) + (l : Nat) - 1 = ((31 + l : Nat) : Int) := by omega
    rw [e, freeSizes_get (by omega), hs]
    have ev : ftbl (31 + l) = 2 ^ l * 1024 := by
      interval_cases l <;> rfl
    have ev2 : ftbl (32 + l) = 2 ^ (l+1) * 1024 := by
      interval_cases l <;> rfl
    have hlo' : 2 ^ l * 1024 ≤ size := by
      have := Nat.mul_le_mul_right 1024 hlo; omega
    have hhi' : size < 2 ^ (l+1) * 1024 := by
      have := Nat.mul_le_mul_right 1024 (Nat.succ_le_of_lt hhi); omega
    by_cases hlt : ((ftbl (31 + l) : Nat) : Int) < (size : Int)
    · have hlt' : ftbl (31 + l) < size := by omega
      refine ⟨32 + l, ?_, ?_, by omega, ?_⟩
      · simp only [Outcome.ok_bind, hlt, if_true, Outcome.pure_eq]
        congr 1; omega
      · have : l ≠ 11 := by
          rintro rfl; rw [ev] at hlt'; omega
        omega
      · intro j hj
        have := ftbl_mono (show j ≤ 31 + l by omega); omega
    · refine ⟨31 + l, ?_, by omega, by omega, ?_⟩
      · simp only [Outcome.ok_bind, hlt, if_false, Outcome.pure_eq]
      · intro j hj
        have := ftbl_lt hj; omega

theorem getFreeListFast_large {size : Nat} (h1 : MB2 < size) (h2 : size < W63) :
    getFreeListFast freeSizes size = .ok 44 := by
  unfold getFreeListFast reverseAnalytic
  rw [if_neg (by omega), if_pos h1, toS_eq h2]
  have : tblGet freeSizes 43 = .ok (-1) := rfl
  simp only [this, Outcome.ok_bind]
  rw [if_pos (by omega)]; rfl

theorem getFreeListFast_neg {size : Nat} (h1 : W63 ≤ size) (h2 : size < W64) :
    getFreeListFast freeSizes size = .ok 43 := by
  unfold getFreeListFast reverseAnalytic
  rw [if_neg (by omega), if_pos (by omega)]
  have : tblGet freeSizes 43 = .ok (-1) := rfl
  have : toS size ≤ -1 := by unfold toS; rw [if_neg (by omega)]; omega
  simp only [‹tblGet freeSizes 43 = _›, Outcome.ok_bind]
  rw [if_neg (by omega)]; rfl

/-- Class used to store a free chunk: largest class not above its size; beyond 2 MB, list 44. -/
def IsStoreClass (size j : Nat) : Prop :=
  (size ≤ MB2 ∧ j ≤ 42 ∧ ftbl j ≤ size ∧ (j < 42 → size < ftbl (j + 1))) ∨ (MB2 < size ∧ j = 44)

theorem insertIdx_spec {size : Nat} (h1 : 32 ≤ size) (h2 : size < W63) :
    ∃ j : Nat, insertIdx freeSizes 44 true size = .ok (j : Int) ∧ IsStoreClass size j := by
  unfold insertIdx getFreeList
  simp only [if_true]
  by_cases hc : size ≤ MB2
  · obtain ⟨k, hk, hk1, hk2, hk3⟩ := getFreeListFast_small h1 hc
    rw [hk]
    simp only [Outcome.ok_bind, freeSizes_get hk1, Outcome.pure_eq]
    rw [toS_eq h2]
    by_cases hcond : ((k : Int) ≠ 0 ∧ ((ftbl k : Nat) : Int) ≠ -1 ∧ ((ftbl k : Nat) : Int) ≠ (size : Int))
    · rw [if_pos hcond]
      have hk0 : k ≠ 0 := by rintro rfl; simp at hcond
      have hne : ftbl k ≠ size := by intro h; apply hcond.2.2; omega
      have hlt := hk3 (k-1) (by omega)
      refine ⟨k - 1, ?_, Or.inl ⟨hc, by omega, by omega, ?_⟩⟩
      · congr 1; omega
      · intro _; have : k - 1 + 1 = k := by omega
        rw [this]; omega
    · rw [if_neg hcond]
      refine ⟨k, rfl, Or.inl ⟨hc, hk1, ?_, ?_⟩⟩
      · by_cases hk0 : k = 0
        · subst hk0; simpa [ftbl] using h1
        · have hk0' : (k : Int) ≠ 0 := by omega
          have : ¬ (((ftbl k : Nat) : Int) ≠ (size : Int)) := by
            intro h; exact hcond ⟨hk0', by omega, h⟩
          omega
      · intro hlt; have := ftbl_succ_lt (i := k); omega
  · rw [getFreeListFast_large (by omega) h2]
    have : tblGet freeSizes 44 = .ok (-1) := rfl
    refine ⟨44, ?_, Or.inr ⟨by omega, rfl⟩⟩
    simp [this]

theorem IsStoreClass.lt {s j : Nat} (h : IsStoreClass s j) : j < 48 := by
  rcases h with h | h <;> omega

theorem IsStoreClass.unique {s j j' : Nat} (h : IsStoreClass s j) (h' : IsStoreClass s j') : j = j' := by
  rcases h with ⟨a, b, c, d⟩ | ⟨a, b⟩ <;> rcases h' with ⟨a', b', c', d'⟩ | ⟨a', b'⟩ <;> try omega
  rcases Nat.lt_trichotomy j j' with e | e | e
  · have := d (by omega); have := ftbl_mono (show j + 1 ≤ j' by omega); omega
  · exact e
  · have := d' (by omega); have := ftbl_mono (show j' + 1 ≤ j by omega); omega

/-! ## The binary search -/

theorem slowLoop_spec {size : Nat} {k : Nat} (hk : IsClass size k) (hs : size < W63) :
    ∀ (seg p i : Nat), i = seg / 2 → p < k → k < p + seg → p + seg ≤ 44 →
      slowLoop freeSizes (toS size) p seg i = .ok (k : Int) := by
  obtain ⟨hk1, hk2, hk3⟩ := hk
  intro seg
  induction seg using Nat.strongRecOn with
  | ind seg ih =>
    intro p i hi h1 h2 h3
    rw [slowLoop, toS_eq hs]
    have e1 : (p : Int) + i - 1 = ((p + i - 1 : Nat) : Int) := by omega
    have e2 : (p : Int) + i = ((p + i : Nat) : Int) := by omega
    rw [e1, e2, freeSizes_get (by omega), freeSizes_get (by omega)]
    simp only [Outcome.ok_bind, Outcome.pure_eq]
    have lt_iff : ∀ j, ftbl j < size ↔ j < k := by
      intro j
      constructor
      · intro h
        by_contra hc
        have := ftbl_mono (show k ≤ j by omega); omega
      · exact hk3 j
    rcases Nat.lt_trichotomy (p + i) k with c | c | c
    · have := (lt_iff _).2 c
      rw [if_pos (Or.inr (by omega)), if_pos (by omega), ← toS_eq hs]
      exact ih _ (by omega) _ _ rfl c (by omega) (by omega)
    · have h4 : ¬ ftbl (p + i) < size := by rw [lt_iff]; omega
      have h5 : ftbl (p + i - 1) < size := by rw [lt_iff]; omega
      rw [if_neg (by omega), c]
    · have h4 : ¬ ftbl (p + i) < size := by rw [lt_iff]; omega
      have h5 : ¬ ftbl (p + i - 1) < size := by rw [lt_iff]; omega
      rw [if_pos (Or.inl (by omega)), if_neg (by omega), ← toS_eq hs]
      exact ih _ (by omega) _ _ rfl h1 (by omega) (by omega)

theorem getFreeListSlow_small {size : Nat} (h1 : 32 ≤ size) (h2 : size ≤ MB2) :
    ∃ k : Nat, getFreeListSlow freeSizes 44 size = .ok (k : Int) ∧ IsClass size k := by
  obtain ⟨k, _, hk⟩ := getFreeListFast_small h1 h2
  refine ⟨k, ?_, hk⟩
  unfold getFreeListSlow
  have h0 : tblGet freeSizes 0 = .ok 32 := rfl
  rw [h0, toS_eq (by omega)]
  simp only [Outcome.ok_bind, Outcome.pure_eq]
  by_cases hc : (32 : Int) ≥ (size : Int)
  · rw [if_pos hc]
    have : k = 0 := by
      by_contra hne
      have := hk.2.2 0 (by omega)
      simp [ftbl] at this; omega
    subst this; rfl
  · rw [if_neg hc, ← toS_eq (a := size) (by omega)]
    have h := hk.1
    apply slowLoop_spec hk (by omega) _ _ _ rfl <;> try omega
    by_contra hne
    have hk0 : k = 0 := by omega
    have := hk.2.1
    simp [hk0, ftbl] at this; omega

/-- A one-element window on a `-1` entry is never left: the binary search spins. -/
theorem slowLoop_stuck {t : List Int} {size : Int} {p : Nat} {a b : Int}
    (ha : tblGet t ((p : Int) - 1) = .ok a) (hb : tblGet t (p : Int) = .ok b) (hlt : b < size) :
    slowLoop t size p 1 0 = .diverge := by
  have key : ∀ x, slowLoop t size p 1 0 = x → x = .diverge := by
    have := slowLoop.fixpoint_induct t size (fun f => f p 1 0 = .diverge) ?_ ?_
    · intro x hx; rw [← hx]; exact this
    · apply Lean.Order.admissible_apply (P := fun (p : Nat) (g : Nat → Nat → Outcome Int) => g 1 0 = .diverge)
      apply Lean.Order.admissible_apply (P := fun (p : Nat) (g : Nat → Outcome Int) => g 0 = .diverge)
      apply Lean.Order.admissible_apply (P := fun (p : Nat) (g : Outcome Int) => g = .diverge)
      exact Lean.Order.admissible_flatOrder (b := Outcome.diverge) (P := fun g => g = .diverge) rfl
    · intro f ih
      have e2 : (p : Int) + (0 : Nat) = (p : Int) := by omega
      simp only [e2, ha, hb, Outcome.ok_bind]
      rw [if_pos (Or.inr hlt), if_pos hlt]
      exact ih
  exact key _ rfl

end MpcAlloc
