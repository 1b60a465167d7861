import Verif.Basic

/-
The persistent memory pool (/repo/src/sctk_alloc_pmem.c 204-214) and property C35.
-/

namespace MpcAlloc
namespace Pmem

/-- `sctk_pmem_desc_t`, sctk_alloc_pmem.h 62-68. -/
structure Desc where
  curSize : Nat
  maxSize : Nat
  ptr : Nat
  start : Nat

/-- The descriptor made by `sctk_pmem_create`, sctk_alloc_pmem.c 25-109, for a mapping of `size` bytes at `base`.
Simplification: the file and the mapping themselves are in PmemFile.lean. -/
def create (base size : Nat) : Desc := ⟨0, size, base, base⟩

/-- `sctk_pmem_malloc`, sctk_alloc_pmem.c 204-214. -/
def malloc (d : Desc) (size : Nat) : Desc × Nat :=
  if add64 size d.curSize ≤ d.maxSize then
    ({ d with curSize := add64 d.curSize size, ptr := add64 d.ptr size }, d.ptr)
  else (d, 0)

/-- The blocks `(address, size)` returned for a list of requested sizes, last one first. -/
def blocks : Desc → List Nat → List (Nat × Nat) → Desc × List (Nat × Nat)
  | d, [], acc => (d, acc)
  | d, n :: l, acc =>
    let (d', p) := malloc d n
    blocks d' l (if p = 0 then acc else (p, n) :: acc)

structure Inv (base size : Nat) (d : Desc) (acc : List (Nat × Nat)) : Prop where
  start : d.start = base
  max : d.maxSize = size
  cur : d.curSize ≤ size
  ptr : d.ptr = base + d.curSize
  low : ∀ b ∈ acc, base ≤ b.1 ∧ b.1 + b.2 ≤ base + d.curSize
  disj : acc.Pairwise (fun b c => b.1 + b.2 ≤ c.1 ∨ c.1 + c.2 ≤ b.1)

theorem malloc_inv {base size n : Nat} {d : Desc} {acc : List (Nat × Nat)} (h0 : 0 < base) (h1 : base + size < W64)
    (hn : n + size < W64) (I : Inv base size d acc) :
    Inv base size (malloc d n).1 (if (malloc d n).2 = 0 then acc else ((malloc d n).2, n) :: acc) := by
  have hc := I.cur
  have hp := I.ptr
  have hm := I.max
  unfold malloc
  rw [add64_eq (a := n) (by omega), add64_eq (a := d.curSize) (by omega)]
  by_cases hle : n + d.curSize ≤ d.maxSize
  · rw [if_pos hle, add64_eq (a := d.ptr) (by omega)]
    simp only
    rw [if_neg (by omega)]
    refine ⟨I.start, I.max, ?_, ?_, ?_, ?_⟩
    · simp only; omega
    · simp only; omega
    · intro b hb
      rcases List.mem_cons.1 hb with rfl | hb
      · simp only; omega
      · have := I.low b hb; simp only; omega
    · refine List.pairwise_cons.2 ⟨fun b hb => ?_, I.disj⟩
      have := I.low b hb
      simp only; omega
  · rw [if_neg hle]
    simp only [if_true]
    exact I

theorem blocks_inv {base size : Nat} (h0 : 0 < base) (h1 : base + size < W64) (l : List Nat) :
    ∀ {d : Desc} {acc : List (Nat × Nat)}, (∀ n ∈ l, n + size < W64) → Inv base size d acc →
      Inv base size (blocks d l acc).1 (blocks d l acc).2 := by
  induction l with
  | nil => exact fun _ h => h
  | cons n l ih =>
    intro d acc hl h
    exact ih (fun k hk => hl k (List.mem_cons_of_mem _ hk)) (malloc_inv h0 h1 (hl n List.mem_cons_self) h)

/-- C35: for any sequence of sizes that do not wrap around when added to the size of the pool, the blocks are pairwise
disjoint and inside of the pool. Missing: larger sizes (`C35_refuted`). -/
theorem C35_pool_partial {base size : Nat} (h0 : 0 < base) (h1 : base + size < W64) (l : List Nat)
    (hl : ∀ n ∈ l, n + size < W64) :
    (blocks (create base size) l []).2.Pairwise (fun b c => b.1 + b.2 ≤ c.1 ∨ c.1 + c.2 ≤ b.1) ∧
    ∀ b ∈ (blocks (create base size) l []).2, base ≤ b.1 ∧ b.1 + b.2 ≤ base + size := by
  have I := blocks_inv h0 h1 l hl (d := create base size) (acc := [])
    ⟨rfl, rfl, by simp [create], by simp [create], by simp, by simp⟩
  refine ⟨I.disj, fun b hb => ?_⟩
  have := I.low b hb
  have := I.cur
  omega

/-- Three requests on a pool of 4096 bytes at 8192; the second one does not fit. -/
example : (0 < (8192 : Nat)) ∧ (8192 : Nat) + 4096 < W64 ∧ (∀ n ∈ [100, 4000, 50], n + 4096 < W64) ∧
    (blocks (create 8192 4096) [100, 4000, 50] []).2 = [(8292, 50), (8192, 100)] := by
  refine ⟨by omega, by omega, ?_, by decide⟩
  intro n hn
  simp at hn
  omega

/-- C35 is false for every size: after a block of 100 bytes, a request of 2^64 - 100 bytes wraps around, is granted,
and the next block is the first one again. -/
theorem C35_refuted : (blocks (create 8192 4096) [100, 18446744073709551516, 100] []).2 =
    [(8192, 100), (8292, 18446744073709551516), (8192, 100)] := by decide

end Pmem
end MpcAlloc
