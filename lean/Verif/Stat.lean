import Verif.HistoryLemmas
import Verif.LightSource

/-
Statistics of a chain: `sctk_alloc_chain_get_stat`, /repo/src/sctk_allocator.c 2703-2749.
-/

namespace MpcAlloc

variable {σ : Type}

/-- `struct sctk_alloc_chain_stat`, sctk_alloc_chain.h 63-70; `min` and `max` are signed. `nb_macro_blocs`, which is
always 0, is left out. -/
structure Stat where
  nb : Nat
  mem : Nat
  min : Int
  max : Int

/-- One free chunk of `n` bytes, sctk_allocator.c 2732-2738. `sctk_alloc_get_chunk_header_large_size` is signed, so
that the comparison with -1 is signed. -/
def Stat.add (st : Stat) (n : Nat) : Stat :=
  { nb := add64 st.nb 1, mem := add64 st.mem n, min := if toS n < st.min then toS n else st.min,
    max := if toS n > st.max then toS n else st.max }

/-- Inner loop, sctk_allocator.c 2729-2740. -/
def statLoop (m : Mem) (head cur : Nat) (st : Stat) : Outcome Stat :=
  if cur = head then .ok st
  else if cur = 0 then .ub
  else statLoop m head (getNext m cur) (st.add (hSize m cur))
partial_fixpoint

/-- Outer loop, sctk_allocator.c 2728-2741: `k` lists from number `i`. -/
def statLists (m : Mem) (P : Pool) : Nat → Nat → Stat → Outcome Stat
  | _, 0, st => .ok st
  | i, k + 1, st => do
    let st ← statLoop m (P.head i) (getNext m (P.head i)) st
    statLists m P (i + 1) k st

/-- `sctk_alloc_chain_get_stat`, sctk_allocator.c 2703-2749. The lock is taken a second time instead of being
released (line 2745). -/
def chainGetStat (s : CS σ) : Outcome (CS σ × Stat) := do
  let s ← lockIf s
  let st ← statLists s.w.mem s.c.pool 0 s.c.pool.nb ⟨0, 0, -1, 0⟩
  let s ← lockIf s
  return (s, if st.min = -1 then { st with min := 0 } else st)

/-- `sctk_alloc_rfq_count_entries`, sctk_allocator.c 2589-2598: the condition of the loop never changes. -/
def rfqCountLoop (m : Mem) (entries cur : Nat) (cnt : Nat) : Outcome Nat :=
  if entries = 0 then .ok cnt
  else if cur = 0 then .ub
  else rfqCountLoop m entries (readLE m cur 8) (cnt + 1)
partial_fixpoint

/-! ## Lemmas -/

theorem statLoop_spec {m : Mem} {h a : Nat} {l : List Nat} {st : Stat} (H : Links m a l h)
    (hl : ∀ n ∈ l, n ≠ 0 ∧ n ≠ h) :
    statLoop m h (getNext m a) st = .ok ((l.map (hSize m)).foldl Stat.add st) := by
  induction l generalizing a st with
  | nil => rw [H.1, statLoop]; simp
  | cons b l ih =>
    rw [H.1, statLoop]
    have hb := hl b (by simp)
    rw [if_neg hb.2, if_neg hb.1, ih H.2.2 (fun n hn => hl n (by simp [hn]))]
    rfl

/-- The free chunks in the lists `i .. i + k - 1`. -/
def AHeap.inLists (A : AHeap) (i k : Nat) : List Ck := (List.range' i k).flatMap A.fl

theorem statLists_spec {pb : Nat} {s : CS σ} {A : AHeap} (W : A.WF pb) (I : ChainInv pb s A) :
    ∀ (k i : Nat) (st : Stat), i + k ≤ 48 →
    statLists s.w.mem (stdPool pb) i k st = .ok (((A.inLists i k).map Ck.size).foldl Stat.add st) := by
  intro k
  induction k with
  | zero => intro i st _; rfl
  | succ k ih =>
    intro i st h
    have hl : Links s.w.mem _ _ _ := I.mem.lists i (by omega)
    have hn : ∀ n ∈ (A.fl i).map Ck.addr, n ≠ 0 ∧ n ≠ (stdPool pb).head i := by
      intro n hn
      obtain ⟨c, hc, rfl⟩ := List.mem_map.1 hn
      have h1 := W.node_pos (a := c.addr) (Or.inr ⟨i, c, hc, rfl⟩)
      have h2 := W.has_pool (W.flHas i c hc)
      have h3 := (W.has_wf (W.flHas i c hc)).ge
      rw [stdPool_head]
      omega
    have e : ((A.fl i).map Ck.addr).map (hSize s.w.mem) = (A.fl i).map Ck.size := by
      rw [List.map_map]
      refine List.map_congr_left ?_
      intro c hc
      obtain ⟨g, hg, hcg⟩ := W.flHas i c hc
      have hm := (I.mem.segs g hg).chunks
      rw [Seg.ext, chunksMem_append] at hm
      obtain ⟨l1, l2, e⟩ := List.append_of_mem hcg
      rw [e, chunksMem_mid] at hm
      have := hm.1.2.1.hdr.size
      rw [Ck.hdrSize_eq (W.has_wf (W.flHas i c hc)).nstop] at this
      exact this
    show (do
      let st ← statLoop s.w.mem ((stdPool pb).head i) (getNext s.w.mem ((stdPool pb).head i)) st
      statLists s.w.mem (stdPool pb) (i + 1) k st) = _
    rw [statLoop_spec hl hn, Outcome.ok_bind, e, ih (i + 1) _ (by omega)]
    unfold AHeap.inLists
    rw [List.range'_succ, List.flatMap_cons, List.map_append, List.foldl_append]

/-- What the loops compute. -/
theorem stat_fold : ∀ (F : List Nat) (st : Stat), (∀ n ∈ F, n < W63) → st.min = -1 → st.nb + F.length < W64 →
    st.mem + F.sum < W64 → 0 ≤ st.max →
    F.foldl Stat.add st = ⟨st.nb + F.length, st.mem + F.sum, -1, max st.max ((F.foldr max 0 : Nat) : Int)⟩ := by
  intro F
  induction F with
  | nil =>
    intro st _ h1 _ _ h2
    obtain ⟨a, b, c, d⟩ := st
    simp only at h1 h2
    subst h1
    simp [Int.max_eq_left h2]
  | cons n l ih =>
    intro st h h1 h2 h3 h4
    have hn := h n List.mem_cons_self
    simp only [List.length_cons, List.sum_cons] at h2 h3
    have ht : toS n = (n : Int) := toS_eq hn
    have e : st.add n = ⟨st.nb + 1, st.mem + n, -1, max st.max (n : Int)⟩ := by
      unfold Stat.add
      rw [ht, add64_eq (by omega), add64_eq (by omega), h1, if_neg (by omega)]
      congr 1
      split <;> omega
    rw [List.foldl_cons, ih _ (fun x hx => h x (List.mem_cons_of_mem _ hx)) (by rw [e]) (by rw [e]; simp only; omega)
      (by rw [e]; simp only; omega) (by rw [e]; simp only; omega), e]
    simp only [List.length_cons, List.sum_cons, List.foldr_cons, Stat.mk.injEq, true_and]
    refine ⟨by omega, by omega, by omega⟩

/-- All the chunks, buffer after buffer. -/
def AHeap.all (A : AHeap) : List Ck := A.segs.flatMap Seg.chunks

theorem AHeap.mem_all {A : AHeap} {c : Ck} : c ∈ A.all ↔ A.Has c := by
  unfold AHeap.all AHeap.Has
  rw [List.mem_flatMap]

theorem tiles_pairwise {a e : Nat} {l : List Ck} (h : Tiles a l e) :
    l.Pairwise (fun c d => c.addr + c.size ≤ d.addr) := by
  induction l generalizing a with
  | nil => exact .nil
  | cons c l ih =>
    obtain ⟨rfl, h2⟩ := h
    exact List.pairwise_cons.2 ⟨fun d hd => (tiles_mem h2 hd).1, ih h2⟩

theorem AHeap.WF.all_pairwise {pb : Nat} {A : AHeap} (W : A.WF pb) :
    A.all.Pairwise (fun c d => c.addr + c.size ≤ d.addr ∨ d.addr + d.size ≤ c.addr) := by
  unfold AHeap.all
  rw [List.pairwise_flatMap]
  refine ⟨fun g hg => (tiles_pairwise (W.seg g hg).tiles).imp Or.inl, ?_⟩
  refine W.disj.imp_of_mem ?_
  intro g g' hg hg' h c hc d hd
  have h1 := (W.seg g hg).bounds hc
  have h2 := (W.seg g' hg').bounds hd
  have h3 := (W.seg g hg).ge
  have h4 := (W.seg g' hg').ge
  omega

theorem AHeap.WF.all_nodup {pb : Nat} {A : AHeap} (W : A.WF pb) : A.all.Nodup := by
  refine W.all_pairwise.imp_of_mem ?_
  intro c d hc _ h
  have := (W.has_wf (AHeap.mem_all.1 hc)).ge
  rintro rfl
  omega

/-- The lists 0 to 43 hold the free chunks of at most 2 MB. -/
theorem AHeap.WF.inLists_perm {pb : Nat} {A : AHeap} (W : A.WF pb) :
    (A.inLists 0 44).Perm (A.all.filter (fun c => decide (c.st = .free) && decide (c.size ≤ MB2))) := by
  rw [List.perm_ext_iff_of_nodup]
  · intro c
    unfold AHeap.inLists
    rw [List.mem_flatMap, List.mem_filter, AHeap.mem_all]
    simp only [Bool.and_eq_true, decide_eq_true_eq]
    constructor
    · rintro ⟨i, hi, hc⟩
      have hcl := W.flClass i c hc
      have hi := List.mem_range'_1.1 hi
      unfold IsStoreClass at hcl
      exact ⟨W.flHas i c hc, W.flFree i c hc, by omega⟩
    · rintro ⟨h1, h2, h3⟩
      obtain ⟨i, hi⟩ := W.flAll c h1 h2
      have hcl := W.flClass i c hi
      unfold IsStoreClass at hcl
      exact ⟨i, List.mem_range'_1.2 (by omega), hi⟩
  · unfold AHeap.inLists
    rw [List.Nodup, List.pairwise_flatMap]
    refine ⟨fun i _ => W.flNodup i, ?_⟩
    have : (List.range' 0 44).Nodup := List.nodup_range'
    refine this.imp ?_
    rintro i j hij c hc _ hd rfl
    exact hij (W.fl_unique hc hd)
  · exact W.all_nodup.filter _

theorem AHeap.WF.sum_lt {pb : Nat} {A : AHeap} (W : A.WF pb) (p : Ck → Bool) :
    ((A.all.filter p).map Ck.size).sum < W64 := by
  have h := sum_le_of_apart (N := W64 - 1) ((A.all.filter p).map (fun c => (c.addr, c.size))) ?_ ?_
  · rw [List.map_map] at h
    have e : (Prod.snd ∘ fun c : Ck => (c.addr, c.size)) = Ck.size := rfl
    rw [e] at h
    omega
  · intro d hd
    obtain ⟨c, hc, rfl⟩ := List.mem_map.1 hd
    have := W.has_range (AHeap.mem_all.1 (List.mem_filter.1 hc).1)
    simp only
    omega
  · rw [List.pairwise_map]
    exact W.all_pairwise.sublist List.filter_sublist

/-- The statistics of a chain with abstract heap `A`. -/
theorem getStat_ok {pb : Nat} {s : CS σ} {A : AHeap} (W : A.WF pb) (I : ChainInv pb s A) (ht : s.c.threadSafe = false) :
    chainGetStat s = .ok (s,
      let F := (A.all.filter (fun c => decide (c.st = .free) && decide (c.size ≤ MB2))).map Ck.size
      ⟨F.length, F.sum, 0, ((F.foldr max 0 : Nat) : Int)⟩) := by
  have hlk : lockIf s = .ok s := by
    unfold lockIf
    rw [I.dead, ht]
    rfl
  have hp := W.inLists_perm.map Ck.size
  unfold chainGetStat
  rw [hlk, Outcome.ok_bind, I.pool]
  show (do
    let st ← statLists s.w.mem (stdPool pb) 0 44 ⟨0, 0, -1, 0⟩
    let s ← lockIf s
    return (s, if st.min = -1 then { st with min := 0 } else st)) = _
  have hs : ∀ n ∈ (A.inLists 0 44).map Ck.size, n ≤ MB2 ∧ 32 ≤ n := by
    intro n hn
    obtain ⟨c, hc, rfl⟩ := List.mem_map.1 (hp.mem_iff.1 hn)
    have h1 := (List.mem_filter.1 hc)
    simp only [Bool.and_eq_true, decide_eq_true_eq] at h1
    exact ⟨h1.2.2, (W.has_wf (AHeap.mem_all.1 h1.1)).ge⟩
  have hsum : ((A.inLists 0 44).map Ck.size).sum < W64 := by
    rw [hp.sum_eq]; exact W.sum_lt _
  have hlen : ∀ F : List Nat, (∀ n ∈ F, 32 ≤ n) → F.length ≤ F.sum := by
    intro F
    induction F with
    | nil => simp
    | cons n l ih =>
      intro h
      have := ih (fun x hx => h x (List.mem_cons_of_mem _ hx))
      have := h n List.mem_cons_self
      simp only [List.length_cons, List.sum_cons]
      omega
  have hl := hlen _ (fun n hn => (hs n hn).2)
  rw [statLists_spec W I 44 0 _ (by omega), Outcome.ok_bind, hlk, Outcome.ok_bind,
    stat_fold _ _ (fun n hn => by have := (hs n hn).1; omega) rfl (by simp only; omega) (by simp only; omega)
      (by simp)]
  have hmax : ((A.inLists 0 44).map Ck.size).foldr max 0 =
      ((A.all.filter (fun c => decide (c.st = .free) && decide (c.size ≤ MB2))).map Ck.size).foldr max 0 :=
    hp.foldr_eq' (by intro x _ y _ z; omega) 0
  rw [hmax, hp.sum_eq, hp.length_eq]
  simp only [if_true, Nat.zero_add, Outcome.pure_eq]
  congr 3

end MpcAlloc
