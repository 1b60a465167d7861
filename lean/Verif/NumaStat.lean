import Verif.Basic
import Mathlib.Data.Finset.Card
import Mathlib.Data.Finset.Image
import Mathlib.Data.Finset.Range
import Mathlib.Algebra.BigOperators.Group.List.Basic

/-
NUMA statistics of memory segments and chains (sctk_alloc_numa_stat.c, sctk_allocator.c) and property C54.
-/

namespace MpcAlloc
namespace NumaStat

/-- `struct sctk_alloc_numa_stat_s` (sctk_alloc_numa_stat.h 36-46) without the number of nodes. `pages` has the indices 0
to `SCTK_MAX_NUMA_NODE` = 128 (build with hwloc). -/
@[ext] structure Stat where
  total : Nat
  mapped : Nat
  pages : Nat → Nat

/-- What the kernel tells of a page of the process: the entry of `/proc/self/pagemap` (`present`, `order`, the fields of
sctk_alloc_numa_stat.h 50-66) and the status that `move_pages` leaves, which stays at -1 when the call fails. -/
structure Kernel where
  present : Nat → Bool
  order : Nat → Nat
  status : Nat → Int

/-- `sctk_alloc_numa_stat_get_node_of_page`, sctk_alloc_numa_stat.c 94-122, with the page of the pointer. The variant without
libnuma is the one where each status is -1. -/
def nodeOfPage (K : Kernel) (page : Nat) : Int :=
  if -1 ≤ K.status page ∧ K.status page < 128 then K.status page else 128

/-- `sctk_alloc_numa_stat_reset`, 148-163. -/
def reset : Stat := ⟨0, 0, fun _ => 0⟩

/-- `stat->numa_pages[node]++`; the indices out of the array are undefined behaviour. -/
def Stat.count (s : Stat) (node : Int) : Outcome Stat :=
  if 0 ≤ node ∧ node ≤ 128 then .ok { s with pages := fun d => s.pages d + (if (d : Int) = node then 1 else 0) } else .ub

/-- The loop of `sctk_alloc_numa_stat_cumul`, 262-271, with `k` turns left: `i` is an int, `i << 12` overflows from 2^19 on. -/
def countLoop (K : Kernel) (ptr : Nat) : (k i : Nat) → Stat → Outcome Stat
  | 0, _, s => .ok s
  | k + 1, i, s =>
    let s := { s with total := s.total + 1 }
    if K.present (ptr / 4096 + i) then
      if K.order (ptr / 4096 + i) ≠ 12 then .abort
      else if 2 ^ 19 ≤ i then .ub
      else do
        let s' ← ({ s with mapped := s.mapped + 1 } : Stat).count (nodeOfPage K ((ptr + i * 4096) / 4096))
        countLoop K ptr k (i + 1) s'
    else countLoop K ptr k (i + 1) s

/-- `sctk_alloc_numa_stat_cumul` with `HAVE_LINUX_PAGEMAP`, 238-276. `avail`: the file could be opened. Its reading
(199-233) is left out: the entries are those of the kernel. -/
def cumul (K : Kernel) (avail : Bool) (s : Stat) (ptr size : Nat) : Outcome Stat :=
  if avail then countLoop K ptr (size / 4096) 0 s else .ok { s with mapped := s.mapped + size / 4096 }

/-- The loop of the variant without it, 297-302: `i` is unsigned, `i << 12` is taken modulo 2^32. -/
def countLoop' (K : Kernel) (ptr : Nat) : (k i : Nat) → Stat → Outcome Stat
  | 0, _, s => .ok s
  | k + 1, i, s => do
    let node := nodeOfPage K ((ptr + i * 4096 % 2 ^ 32) / 4096)
    let s' ← if -1 < node then s.count node else .ok s
    countLoop' K ptr k (i + 1) s'

/-- `sctk_alloc_numa_stat_cumul` without `HAVE_LINUX_PAGEMAP`, 278-303. From 2^32 pages on the counter never reaches the
bound. -/
def cumul' (K : Kernel) (s : Stat) (ptr size : Nat) : Outcome Stat :=
  if 2 ^ 32 ≤ size / 4096 then .diverge else countLoop' K ptr (size / 4096) 0 s

/-- `sctk_alloc_numa_stat_get`, 307-311. -/
def get (K : Kernel) (avail : Bool) (ptr size : Nat) : Outcome Stat := cumul K avail reset ptr size

def get' (K : Kernel) (ptr size : Nat) : Outcome Stat := cumul' K reset ptr size

/-- `sctk_alloc_numa_check`, 370-412: whether it reports. The ratio is a quotient of floats; with 0 pages mapped it is
infinite or not a number, and the comparison false. Rounding is left out. -/
def reports (s : Stat) (node minRatio : Nat) : Bool :=
  s.mapped ≠ 0 ∧ 100 * s.pages node < minRatio * s.mapped

/-- `sctk_alloc_chain_get_numa_stat`, sctk_allocator.c 2665-2696: `entries` are the entries of the tables of the regions
in the order of the walk, with the address, the size and the chain of the bloc they point to (`none` for NULL). -/
def chainStat (K : Kernel) (avail : Bool) (chain : Nat) : List (Option (Nat × Nat × Nat)) → Stat → Outcome Stat
  | [], s => .ok s
  | none :: l, s => chainStat K avail chain l s
  | some (bloc, size, owner) :: l, s => do
    let s' ← (if owner = chain then cumul K avail s bloc size else .ok s)
    chainStat K avail chain l s'

/-! ## Specification -/

/-- The pages that have a byte of the segment. -/
def pagesOf (ptr size : Nat) : Finset Nat := (Finset.range size).image fun i => (ptr + i) / 4096

/-- `s'` is `s` with each page of `P` counted once, the ones in memory as mapped, on their node. -/
def Counts (K : Kernel) (P : Finset Nat) (s s' : Stat) : Prop :=
  s'.total = s.total + P.card ∧ s'.mapped = s.mapped + (P.filter fun q => K.present q).card ∧
    ∀ d, s'.pages d = s.pages d + (P.filter fun q => K.present q ∧ K.status q = d).card

/-- The pages of the blocs of a chain. -/
def chainPages (chain : Nat) : List (Option (Nat × Nat × Nat)) → Finset Nat
  | [] => ∅
  | none :: l => chainPages chain l
  | some (bloc, size, owner) :: l => if owner = chain then pagesOf bloc size ∪ chainPages chain l else chainPages chain l

/-- No page has bytes of the blocs of two entries. -/
def Apart (a b : Option (Nat × Nat × Nat)) : Prop :=
  ∀ x y, a = some x → b = some y → Disjoint (pagesOf x.1 x.2.1) (pagesOf y.1 y.2.1)

/-! ## Lemmas -/

theorem pagesOf_aligned {ptr n : Nat} (h : ptr % 4096 = 0) :
    pagesOf ptr (n * 4096) = (Finset.range n).image fun i => ptr / 4096 + i := by
  ext q
  simp only [pagesOf, Finset.mem_image, Finset.mem_range]
  constructor
  · rintro ⟨i, hi, rfl⟩
    exact ⟨i / 4096, by omega, by omega⟩
  · rintro ⟨i, hi, rfl⟩
    exact ⟨i * 4096, by omega, by omega⟩

/-- The pages from the page of `ptr` on. -/
def from' (ptr i k : Nat) : Finset Nat := (Finset.range k).image fun j => ptr / 4096 + (i + j)

theorem from_succ (ptr i k : Nat) : from' ptr i (k + 1) = insert (ptr / 4096 + i) (from' ptr (i + 1) k) := by
  ext q
  simp only [from', Finset.mem_image, Finset.mem_range, Finset.mem_insert]
  constructor
  · rintro ⟨j, hj, rfl⟩
    cases j with
    | zero => exact Or.inl rfl
    | succ j => exact Or.inr ⟨j, by omega, by omega⟩
  · rintro (rfl | ⟨j, hj, rfl⟩)
    · exact ⟨0, by omega, by omega⟩
    · exact ⟨j + 1, by omega, by omega⟩

theorem not_mem_from (ptr i k : Nat) : ptr / 4096 + i ∉ from' ptr (i + 1) k := by
  simp only [from', Finset.mem_image, Finset.mem_range]
  rintro ⟨j, _, h⟩
  omega

theorem card_filter_from (ptr i k : Nat) (p : Nat → Prop) [DecidablePred p] :
    ((from' ptr i (k + 1)).filter p).card = ((from' ptr (i + 1) k).filter p).card + if p (ptr / 4096 + i) then 1 else 0 := by
  rw [from_succ, Finset.filter_insert]
  split
  · rw [Finset.card_insert_of_notMem fun h => not_mem_from ptr i k (Finset.mem_of_mem_filter _ h)]
  · omega

theorem card_from (ptr i k : Nat) : (from' ptr i (k + 1)).card = (from' ptr (i + 1) k).card + 1 := by
  rw [from_succ, Finset.card_insert_of_notMem (not_mem_from ptr i k)]

theorem nodeOfPage_eq {K : Kernel} {q : Nat} (h0 : 0 ≤ K.status q) (h1 : K.status q ≤ 128) : nodeOfPage K q = K.status q := by
  unfold nodeOfPage
  split <;> omega

theorem count_eq {s : Stat} {node : Int} (h0 : 0 ≤ node) (h1 : node ≤ 128) :
    s.count node = .ok { s with pages := fun d => s.pages d + (if (d : Int) = node then 1 else 0) } := by
  unfold Stat.count
  rw [if_pos ⟨h0, by omega⟩]

/-- The loop counts the pages it walks through. -/
theorem countLoop_counts {K : Kernel} {ptr : Nat} : ∀ (k i : Nat) (s : Stat), i + k ≤ 2 ^ 19 →
    (∀ q ∈ from' ptr i k, K.present q → K.order q = 12 ∧ 0 ≤ K.status q ∧ K.status q ≤ 128) →
    ∃ s', countLoop K ptr k i s = .ok s' ∧ Counts K (from' ptr i k) s s' := by
  intro k
  induction k with
  | zero => intro i s _ _; exact ⟨s, rfl, by simp [Counts, from']⟩
  | succ k ih =>
    intro i s hi hq
    have hq' : ∀ q ∈ from' ptr (i + 1) k, K.present q → K.order q = 12 ∧ 0 ≤ K.status q ∧ K.status q ≤ 128 :=
      fun q hm => hq q (by rw [from_succ]; exact Finset.mem_insert_of_mem hm)
    have h0 := hq (ptr / 4096 + i) (by rw [from_succ]; exact Finset.mem_insert_self _ _)
    unfold countLoop
    simp only
    cases hp : K.present (ptr / 4096 + i) with
    | false =>
      rw [if_neg (by simp)]
      obtain ⟨s', e, c1, c2, c3⟩ := ih (i + 1) { s with total := s.total + 1 } (by omega) hq'
      refine ⟨s', e, ?_, ?_, fun d => ?_⟩
      · rw [c1, card_from]; simp only; omega
      · rw [c2, card_filter_from]; simp [hp]
      · rw [c3 d, card_filter_from]; simp [hp]
    | true =>
      obtain ⟨h1, h2, h3⟩ := h0 hp
      have hpage : (ptr + i * 4096) / 4096 = ptr / 4096 + i := by omega
      rw [if_pos rfl, if_neg (by simp [h1]), if_neg (by omega), hpage, nodeOfPage_eq h2 h3, count_eq h2 h3, Outcome.ok_bind]
      obtain ⟨s', e, c1, c2, c3⟩ := ih (i + 1) _ (by omega) hq'
      refine ⟨s', e, ?_, ?_, fun d => ?_⟩
      · rw [c1, card_from]; simp only; omega
      · rw [c2, card_filter_from]; simp only [hp, if_true]; omega
      · rw [c3 d, card_filter_from]
        simp only [hp, true_and]
        have : (d : Int) = K.status (ptr / 4096 + i) ↔ K.status (ptr / 4096 + i) = d := eq_comm
        simp only [this]
        omega

theorem countLoop'_counts {K : Kernel} {ptr : Nat} : ∀ (k i : Nat) (s : Stat), i + k ≤ 2 ^ 20 →
    (∀ q ∈ from' ptr i k, -1 ≤ K.status q ∧ K.status q ≤ 128) →
    ∃ s', countLoop' K ptr k i s = .ok s' ∧ s'.total = s.total ∧ s'.mapped = s.mapped ∧
      ∀ d : Nat, s'.pages d = s.pages d + ((from' ptr i k).filter fun q => K.status q = d).card := by
  intro k
  induction k with
  | zero => intro i s _ _; exact ⟨s, rfl, rfl, rfl, by simp [from']⟩
  | succ k ih =>
    intro i s hi hq
    have hq' : ∀ q ∈ from' ptr (i + 1) k, -1 ≤ K.status q ∧ K.status q ≤ 128 :=
      fun q hm => hq q (by rw [from_succ]; exact Finset.mem_insert_of_mem hm)
    obtain ⟨h2, h3⟩ := hq (ptr / 4096 + i) (by rw [from_succ]; exact Finset.mem_insert_self _ _)
    have hpage : (ptr + i * 4096 % 2 ^ 32) / 4096 = ptr / 4096 + i := by omega
    have hn : nodeOfPage K (ptr / 4096 + i) = K.status (ptr / 4096 + i) := by
      unfold nodeOfPage
      split <;> omega
    unfold countLoop'
    simp only
    rw [hpage, hn]
    by_cases hm : -1 < K.status (ptr / 4096 + i)
    · rw [if_pos hm, count_eq (by omega) h3, Outcome.ok_bind]
      obtain ⟨s', e, c1, c2, c3⟩ := ih (i + 1) _ (by omega) hq'
      refine ⟨s', e, c1, c2, fun d => ?_⟩
      rw [c3 d, card_filter_from]
      have : (d : Int) = K.status (ptr / 4096 + i) ↔ K.status (ptr / 4096 + i) = d := eq_comm
      simp only [this]
      omega
    · rw [if_neg hm, Outcome.ok_bind]
      obtain ⟨s', e, c1, c2, c3⟩ := ih (i + 1) s (by omega) hq'
      refine ⟨s', e, c1, c2, fun d => ?_⟩
      rw [c3 d, card_filter_from, if_neg (by omega)]
      rfl

theorem Counts.trans {K : Kernel} {P Q : Finset Nat} {s s1 s2 : Stat} (h1 : Counts K P s s1) (h2 : Counts K Q s1 s2)
    (hd : Disjoint P Q) : Counts K (P ∪ Q) s s2 := by
  have hf : ∀ (p : Nat → Prop) [DecidablePred p], ((P ∪ Q).filter p).card = (P.filter p).card + (Q.filter p).card := by
    intro p _
    rw [Finset.filter_union, Finset.card_union_of_disjoint (Finset.disjoint_filter_filter hd)]
  refine ⟨?_, ?_, fun d => ?_⟩
  · rw [h2.1, h1.1, Finset.card_union_of_disjoint hd]; omega
  · rw [h2.2.1, h1.2.1, hf]; omega
  · rw [h2.2.2 d, h1.2.2 d, hf]; omega

theorem disjoint_chainPages {P : Finset Nat} {chain : Nat} : ∀ {l : List (Option (Nat × Nat × Nat))},
    (∀ bloc size, some (bloc, size, chain) ∈ l → Disjoint P (pagesOf bloc size)) → Disjoint P (chainPages chain l)
  | [], _ => Finset.disjoint_empty_right _
  | none :: l, h => disjoint_chainPages (l := l) fun b z hm => h b z (List.mem_cons_of_mem _ hm)
  | some (bloc, size, owner) :: l, h => by
    have ih := disjoint_chainPages (l := l) fun b z hm => h b z (List.mem_cons_of_mem _ hm)
    unfold chainPages
    split
    · rename_i ho
      subst ho
      exact Finset.disjoint_union_right.2 ⟨h bloc size List.mem_cons_self, ih⟩
    · exact ih

/-! ## Properties -/

/-- **C54** (partial: segments of whole pages of up to 2 GB; pages in memory have order 12 in the page map and a node).
The statistics of a segment count each of its pages once, and those in memory on the node where they are. -/
theorem C54_pages_partial {K : Kernel} {s : Stat} {ptr size : Nat} (hp : ptr % 4096 = 0) (hs : size % 4096 = 0)
    (hsz : size ≤ 2 ^ 31)
    (hk : ∀ q ∈ pagesOf ptr size, K.present q → K.order q = 12 ∧ 0 ≤ K.status q ∧ K.status q ≤ 128) :
    ∃ s', cumul K true s ptr size = .ok s' ∧ Counts K (pagesOf ptr size) s s' := by
  have e : size = size / 4096 * 4096 := by omega
  have e' : pagesOf ptr size = from' ptr 0 (size / 4096) := by
    rw [e, pagesOf_aligned hp]
    simp [from']
  rw [e'] at hk ⊢
  unfold cumul
  rw [if_pos rfl]
  exact countLoop_counts _ _ _ (by omega) hk

/-- What the kernel tells, with 128 for the status of a page without a node from 0 to 127. -/
def known (K : Kernel) : Kernel := { K with status := fun q => if -1 ≤ K.status q ∧ K.status q < 128 then K.status q else 128 }

theorem countLoop_known (K : Kernel) (ptr : Nat) : ∀ (k i : Nat) (s : Stat), countLoop (known K) ptr k i s = countLoop K ptr k i s := by
  have hn : ∀ q, nodeOfPage (known K) q = nodeOfPage K q := by
    intro q
    unfold nodeOfPage known
    simp only
    by_cases h : -1 ≤ K.status q ∧ K.status q < 128
    · rw [if_pos h, if_pos h]
    · rw [if_neg h, if_neg (by omega)]
  intro k
  induction k with
  | zero => intro i s; rfl
  | succ k ih =>
    intro i s
    unfold countLoop
    simp only [hn, ih]
    rfl

/-- **C54** (partial: segments of whole pages of up to 2 GB; pages in memory have order 12 in the page map, and the kernel does not
leave the status -1). The pages in memory of which the kernel says an error, or a node from 128 on, are counted at the last
index, all others on their node. -/
theorem C54_unknown_partial {K : Kernel} {s : Stat} {ptr size : Nat} (hp : ptr % 4096 = 0) (hs : size % 4096 = 0)
    (hsz : size ≤ 2 ^ 31) (hk : ∀ q ∈ pagesOf ptr size, K.present q → K.order q = 12 ∧ K.status q ≠ -1) :
    ∃ s', cumul K true s ptr size = .ok s' ∧ s'.total = s.total + (pagesOf ptr size).card ∧
      s'.mapped = s.mapped + ((pagesOf ptr size).filter fun q => K.present q).card ∧
      (∀ d < 128, s'.pages d = s.pages d + ((pagesOf ptr size).filter fun q => K.present q ∧ K.status q = d).card) ∧
      s'.pages 128 = s.pages 128 +
        ((pagesOf ptr size).filter fun q => K.present q ∧ (K.status q < 0 ∨ 128 ≤ K.status q)).card := by
  obtain ⟨s', e, h1, h2, h3⟩ := C54_pages_partial (K := known K) (s := s) hp hs hsz (fun q hq hpr => by
    obtain ⟨a, b⟩ := hk q hq hpr
    refine ⟨a, ?_⟩
    unfold known
    simp only
    split <;> omega)
  refine ⟨s', ?_, h1, h2, fun d hd => ?_, ?_⟩
  · rw [← e]
    unfold cumul
    rw [if_pos rfl, if_pos rfl, countLoop_known]
  · rw [h3 d]
    congr 2
    refine Finset.filter_congr fun q hq => and_congr_right fun hpr => ?_
    unfold known
    simp only
    split <;> omega
  · rw [h3 128]
    congr 2
    refine Finset.filter_congr fun q hq => and_congr_right fun hpr => ?_
    have := (hk q hq hpr).2
    unfold known
    simp only
    split <;> omega

/-- **C54** (partial: build without the page map, segments of whole pages of up to 4 GB). Each page is counted on its node;
`move_pages` answers for pages in memory, the others have status -1. The totals are not counted. -/
theorem C54_nomap_partial {K : Kernel} {s : Stat} {ptr size : Nat} (hp : ptr % 4096 = 0) (hs : size % 4096 = 0)
    (hsz : size ≤ 2 ^ 32) (hk : ∀ q ∈ pagesOf ptr size, -1 ≤ K.status q ∧ K.status q ≤ 128) :
    ∃ s', cumul' K s ptr size = .ok s' ∧
      (∀ d : Nat, s'.pages d = s.pages d + ((pagesOf ptr size).filter fun q => K.status q = d).card) ∧
      s'.total = s.total ∧ s'.mapped = s.mapped := by
  have e : size = size / 4096 * 4096 := by omega
  have e' : pagesOf ptr size = from' ptr 0 (size / 4096) := by
    rw [e, pagesOf_aligned hp]
    simp [from']
  rw [e'] at hk ⊢
  unfold cumul'
  rw [if_neg (by omega)]
  obtain ⟨s', h1, h2, h3, h4⟩ := countLoop'_counts _ _ s (by omega) hk
  exact ⟨s', h1, h4, h2, h3⟩

/-- **C54** (for a chain; same conditions for its blocs, and each bloc in one entry of the tables, which holds for blocs
of 2 MB). The statistics of a chain count each page of its blocs once. -/
theorem C54_chain_partial {K : Kernel} {chain : Nat} : ∀ {l : List (Option (Nat × Nat × Nat))} {s : Stat},
    (∀ bloc size, some (bloc, size, chain) ∈ l → bloc % 4096 = 0 ∧ size % 4096 = 0 ∧ size ≤ 2 ^ 31) →
    (∀ q ∈ chainPages chain l, K.present q → K.order q = 12 ∧ 0 ≤ K.status q ∧ K.status q ≤ 128) →
    l.Pairwise Apart → ∃ s', chainStat K true chain l s = .ok s' ∧ Counts K (chainPages chain l) s s'
  | [], s, _, _, _ => ⟨s, rfl, by simp [Counts, chainPages]⟩
  | none :: l, s, h1, h2, h3 =>
    C54_chain_partial (l := l) (fun b z h => h1 b z (List.mem_cons_of_mem _ h)) h2 (List.pairwise_cons.1 h3).2
  | some (bloc, size, owner) :: l, s, h1, h2, h3 => by
    have h3' := List.pairwise_cons.1 h3
    unfold chainStat
    unfold chainPages at h2 ⊢
    by_cases ho : owner = chain
    · subst ho
      rw [if_pos rfl] at h2
      rw [if_pos rfl, if_pos rfl]
      obtain ⟨g1, g2, g3⟩ := h1 bloc size List.mem_cons_self
      obtain ⟨s1, e1, c1⟩ := C54_pages_partial (K := K) (s := s) g1 g2 g3
        (fun q hq => h2 q (Finset.mem_union_left _ hq))
      obtain ⟨s2, e2, c2⟩ := C54_chain_partial (l := l) (s := s1) (fun b z h => h1 b z (List.mem_cons_of_mem _ h))
        (fun q hq => h2 q (Finset.mem_union_right _ hq)) h3'.2
      refine ⟨s2, by rw [e1]; exact e2, c1.trans c2 (disjoint_chainPages fun b z h => h3'.1 _ h _ _ rfl rfl)⟩
    · rw [if_neg ho] at h2
      rw [if_neg ho, if_neg ho]
      exact C54_chain_partial (l := l) (fun b z h => h1 b z (List.mem_cons_of_mem _ h)) h2 h3'.2

/-- **C54** (the check; same conditions). With the page map the check reports exactly when less than the given part of the
pages in memory is on the node. -/
theorem C54_check_partial {K : Kernel} {ptr size node ratio : Nat} (hp : ptr % 4096 = 0) (hs : size % 4096 = 0)
    (hsz : size ≤ 2 ^ 31)
    (hk : ∀ q ∈ pagesOf ptr size, K.present q → K.order q = 12 ∧ 0 ≤ K.status q ∧ K.status q ≤ 128)
    (hm : ∃ q ∈ pagesOf ptr size, K.present q) :
    ∃ s, get K true ptr size = .ok s ∧ (reports s node ratio = true ↔
      100 * ((pagesOf ptr size).filter fun q => K.present q ∧ K.status q = node).card <
        ratio * ((pagesOf ptr size).filter fun q => K.present q).card) := by
  obtain ⟨s, e, c1, c2, c3⟩ := C54_pages_partial (s := reset) hp hs hsz hk
  refine ⟨s, e, ?_⟩
  have h0 : 0 < ((pagesOf ptr size).filter fun q => K.present q).card := by
    obtain ⟨q, h1, h2⟩ := hm
    exact Finset.card_pos.2 ⟨q, Finset.mem_filter.2 ⟨h1, h2⟩⟩
  have d1 : s.mapped = ((pagesOf ptr size).filter fun q => K.present q).card := by rw [c2]; simp [reset]
  have d2 : s.pages node = ((pagesOf ptr size).filter fun q => K.present q ∧ K.status q = node).card := by
    rw [c3 node]; simp [reset]
  unfold reports
  simp only [decide_eq_true_eq, d1, d2]
  constructor
  · exact fun h => h.2
  · exact fun h => ⟨by omega, h⟩

/-- All pages are in memory on node 0. -/
def all0 : Kernel := ⟨fun _ => true, fun _ => 12, fun _ => 0⟩

/-- Two pages. -/
example : ∃ s', cumul all0 true reset 8192 8192 = .ok s' ∧ s'.pages 0 = 2 ∧ s'.total = 2 ∧ s'.mapped = 2 :=
  ⟨_, rfl, rfl, rfl, rfl⟩

example : ∃ s', cumul all0 true reset 8192 8192 = .ok s' ∧ Counts all0 (pagesOf 8192 8192) reset s' :=
  C54_pages_partial rfl rfl (by omega) (fun _ _ _ => ⟨rfl, le_rfl, by simp [all0]⟩)

/-- A page on node 0, and one of which the kernel says an error: hypotheses of `C54_unknown_partial`. -/
example : ∃ s', cumul { all0 with status := fun q => if q = 3 then -2 else 0 } true reset 8192 8192 = .ok s' ∧ s'.pages 0 = 1 ∧
    s'.pages 128 = 1 := ⟨_, rfl, rfl, rfl⟩

example : ∃ s', cumul { all0 with status := fun q => if q = 3 then -2 else 0 } true reset 8192 8192 = .ok s' ∧
    s'.total = reset.total + (pagesOf 8192 8192).card := by
  obtain ⟨s', e, h, _⟩ := C54_unknown_partial (K := { all0 with status := fun q => if q = 3 then -2 else 0 }) (s := reset)
    (ptr := 8192) (size := 8192) rfl rfl (by omega) (fun q _ _ => ⟨rfl, by simp only; split <;> omega⟩)
  exact ⟨s', e, h⟩

/-- Two blocs of a chain and one of another. -/
example : ∃ s', chainStat all0 true 7 [some (4194304, 8192, 7), none, some (6291456, 8192, 8), some (8388608, 4096, 7)] reset
    = .ok s' ∧ s'.pages 0 = 3 := ⟨_, rfl, rfl⟩

example : ∃ s', chainStat all0 true 7 [some (4194304, 8192, 7), none, some (6291456, 8192, 8)] reset = .ok s' ∧
    Counts all0 (chainPages 7 [some (4194304, 8192, 7), none, some (6291456, 8192, 8)]) reset s' := by
  refine C54_chain_partial (fun b z h => ?_) (fun _ _ _ => ⟨rfl, le_rfl, by simp [all0]⟩) ?_
  · simp at h
    omega
  · simp only [List.pairwise_cons, List.mem_cons, List.not_mem_nil, or_false, List.Pairwise.nil, and_true]
    refine ⟨?_, ?_, fun _ h => h.elim⟩
    · rintro a (rfl | rfl) x y hx hy
      · cases hy
      · cases hx; cases hy
        rw [Finset.disjoint_left]
        intro q h1 h2
        simp only [pagesOf, Finset.mem_image, Finset.mem_range] at h1 h2
        obtain ⟨i, _, rfl⟩ := h1
        obtain ⟨j, _, h⟩ := h2
        omega
    · rintro a rfl x y hx hy
      cases hx

/-- **C54** is false of the code for a segment that does not begin on a page: the last page is not counted. -/
theorem C54_refuted_unaligned : ∃ s, get all0 true 6144 4096 = .ok s ∧ s.pages 0 = 1 ∧ (pagesOf 6144 4096).card = 2 := by
  refine ⟨_, rfl, rfl, ?_⟩
  have : pagesOf 6144 4096 = {1, 2} := by
    ext q
    simp only [pagesOf, Finset.mem_image, Finset.mem_range, Finset.mem_insert, Finset.mem_singleton]
    constructor
    · rintro ⟨i, hi, rfl⟩; omega
    · rintro (rfl | rfl)
      · exact ⟨0, by omega, by omega⟩
      · exact ⟨2048, by omega, by omega⟩
  rw [this]; rfl

/-- **C54** is false of the code for more than 2 GB: a shift overflows. -/
theorem C54_refuted_2GB {ptr size : Nat} (h : 2 ^ 31 + 4096 ≤ size) (s : Stat) : cumul all0 true s ptr size = .ub := by
  have key : ∀ (k i : Nat) (s : Stat), i ≤ 2 ^ 19 → 2 ^ 19 < i + k → countLoop all0 ptr k i s = .ub := by
    intro k
    induction k with
    | zero => intro i s h1 h2; omega
    | succ k ih =>
      intro i s h1 h2
      unfold countLoop
      simp only
      rw [if_pos (show all0.present (ptr / 4096 + i) = true from rfl), if_neg (by simp [all0])]
      by_cases hi : 2 ^ 19 ≤ i
      · rw [if_pos hi]
      · rw [if_neg hi, nodeOfPage_eq (by simp [all0]) (by simp [all0]), count_eq (by simp [all0]) (by simp [all0]),
          Outcome.ok_bind]
        exact ih _ _ (by omega) (by omega)
  unfold cumul
  rw [if_pos rfl]
  exact key _ _ _ (by omega) (by omega)

/-- **C54** is false of the code in a build with the page map and without libnuma, or when `move_pages` fails: the first
page in memory is counted at index -1. -/
theorem C54_refuted_no_node {K : Kernel} {ptr size : Nat} (h0 : K.present (ptr / 4096) = true)
    (h1 : K.order (ptr / 4096) = 12) (h2 : K.status (ptr / 4096) = -1) (hs : 4096 ≤ size) (s : Stat) :
    cumul K true s ptr size = .ub := by
  unfold cumul
  rw [if_pos rfl, show size / 4096 = (size / 4096 - 1) + 1 by omega]
  unfold countLoop
  simp only [Nat.add_zero, Nat.zero_mul]
  rw [if_pos h0, if_neg (by simp [h1]), if_neg (by omega)]
  have hn : nodeOfPage K (ptr / 4096) = -1 := by
    unfold nodeOfPage
    rw [h2]; rfl
  rw [hn]
  rfl

/-- **C54** is false of the code when the page map cannot be opened: all the pages are said to be mapped, whether they are
in memory or not, on no node, and the number of pages is 0. -/
theorem C54_refuted_unavailable (K : Kernel) {ptr size : Nat} (hs : 4096 ≤ size) :
    ∃ s, get K false ptr size = .ok s ∧ s.mapped = size / 4096 ∧ s.total < s.mapped ∧ ∀ d, s.pages d = 0 := by
  refine ⟨⟨0, 0 + size / 4096, fun _ => 0⟩, rfl, Nat.zero_add _, ?_, fun _ => rfl⟩
  show 0 < 0 + size / 4096
  omega

/-- **C54** is false of the code on a kernel that leaves 0 in the bits where older ones had the order: the first page in
memory stops the process. -/
theorem C54_refuted_order {K : Kernel} {ptr size : Nat} (h0 : K.present (ptr / 4096) = true)
    (h1 : K.order (ptr / 4096) = 0) (hs : 4096 ≤ size) (s : Stat) : cumul K true s ptr size = .abort := by
  unfold cumul
  rw [if_pos rfl, show size / 4096 = (size / 4096 - 1) + 1 by omega]
  unfold countLoop
  simp only [Nat.add_zero]
  rw [if_pos h0, if_pos (by simp [h1])]

/-- **C54** is false of the code without the page map: the check reports nothing, whatever the nodes. -/
theorem C54_refuted_check {K : Kernel} {ptr size node ratio : Nat} {s : Stat} (hp : ptr % 4096 = 0)
    (hs : size % 4096 = 0) (hsz : size ≤ 2 ^ 32) (hk : ∀ q ∈ pagesOf ptr size, -1 ≤ K.status q ∧ K.status q ≤ 128)
    (e : get' K ptr size = .ok s) : reports s node ratio = false := by
  obtain ⟨s', e', _, _, h⟩ := C54_nomap_partial (s := reset) hp hs hsz hk
  unfold get' at e
  rw [e'] at e
  cases e
  unfold reports
  simp [h, reset]

/-- **C54** is false of the code for the statistics of a chain: a bloc of 4 MB has two entries in the table of its region,
and its pages are counted twice. -/
theorem C54_refuted_chain : ∃ s, chainStat all0 true 7 [some (4194304, 4194304, 7), some (4194304, 4194304, 7)] reset = .ok s ∧
    s.pages 0 = 2048 ∧ (pagesOf 4194304 4194304).card = 1024 := by
  have ha : ∀ s : Stat, ∃ s', cumul all0 true s 4194304 4194304 = .ok s' ∧ s'.pages 0 = s.pages 0 + 1024 := by
    intro s
    obtain ⟨s', e, _, _, c⟩ := C54_pages_partial (K := all0) (s := s) (ptr := 4194304) (size := 4194304) rfl rfl (by omega)
      (fun _ _ _ => ⟨rfl, le_rfl, by simp [all0]⟩)
    refine ⟨s', e, ?_⟩
    rw [c 0, Finset.filter_true_of_mem (fun q _ => ⟨rfl, rfl⟩), show (4194304 : Nat) = 1024 * 4096 from rfl]
    rw [pagesOf_aligned rfl, Finset.card_image_of_injective _ (fun a b h => by simpa using h), Finset.card_range]
  obtain ⟨s1, e1, h1⟩ := ha reset
  obtain ⟨s2, e2, h2⟩ := ha s1
  refine ⟨s2, ?_, ?_, ?_⟩
  · simp only [chainStat, if_true, e1, Outcome.ok_bind, e2]
  · rw [h2, h1]; rfl
  · rw [show (4194304 : Nat) = 1024 * 4096 from rfl, pagesOf_aligned rfl,
      Finset.card_image_of_injective _ (fun a b h => by simpa using h), Finset.card_range]

end NumaStat
end MpcAlloc
