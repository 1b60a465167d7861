import Verif.HistoryLemmas
import Verif.Merge

/-!
Model of `sctk_alloc_free_chunk_range` (sctk_allocator.c 878-905): takes the free chunks of a range of
neighbours out of the free lists. Chunks are given, as in C, by the address of their info byte.
-/

namespace MpcAlloc

/-- `sctk_alloc_free_chunk_range`, sctk_allocator.c 878-905. The `assert` (886) is off in a release build. -/
def freeChunkRange (P : Pool) (s : Heap) (first last : Nat) : Outcome Heap :=
  (if infoState s.mem first = SFREE then
      getPtr s.mem first >>= fun f => freeListRemove P s f
    else pure s) >>= fun s =>
  if first < last then freeChunkRange P s (getNextChunk s.mem first) last else pure s
partial_fixpoint

/-! ### Specification -/

/-- Walk of a doubly linked list from node `a` to node `z`, over the nodes `l`. The forward pointer of a node is at
+16 and the backward pointer at +24. -/
def ListWalk (m : Mem) : Nat → List Nat → Nat → Prop
  | a, [], z => readLE m (a + 16) 8 = z ∧ readLE m (z + 24) 8 = a
  | a, b :: l, z => readLE m (a + 16) 8 = b ∧ readLE m (b + 24) 8 = a ∧ ListWalk m b l z

/-- The cyclic list whose head is at `h` has the elements `l`, none of them twice. -/
def FreeList (m : Mem) (h : Nat) (l : List Nat) : Prop := ListWalk m h l h ∧ (h :: l).Nodup

/-- A chunk marked as used. -/
def markUsed (c : Nat × Nat × Bool) : Nat × Nat × Bool := (c.1, c.2.1, false)

theorem listWalk_iff {m : Mem} {a z : Nat} {l : List Nat} : ListWalk m a l z ↔ Links m a l z := by
  induction l generalizing a with
  | nil => exact Iff.rfl
  | cons b l ih => simp only [ListWalk, Links]; rw [ih]; exact Iff.rfl

/-- The walk of a list is determined by the memory. -/
theorem FreeList.unique {m : Mem} {h : Nat} {l l' : List Nat} (H : FreeList m h l) (H' : FreeList m h l') : l = l' := by
  have key : ∀ (l l' : List Nat) (a : Nat), ListWalk m a l h → ListWalk m a l' h → h ∉ l → h ∉ l' → l = l' := by
    intro l
    induction l with
    | nil =>
      intro l' a h1 h2 _ n2
      cases l' with
      | nil => rfl
      | cons b l' => exact absurd (h1.1.symm.trans h2.1) (by grind)
    | cons b l ih =>
      intro l' a h1 h2 n1 n2
      cases l' with
      | nil => exact absurd (h2.1.symm.trans h1.1) (by grind)
      | cons b' l' =>
        have e : b = b' := h1.1.symm.trans h2.1
        subst e
        rw [ih l' b h1.2.2 h2.2.2 (by grind) (by grind)]
  exact key l l' h H.1 H'.1 (List.nodup_cons.1 H.2).1 (List.nodup_cons.1 H'.2).1

/-! ### The loop -/

/-- The chunk as the call leaves it. -/
def Ck.taken (c : Ck) : Ck := if c.st = .free then c.use else c

@[simp] theorem Ck.taken_addr (c : Ck) : c.taken.addr = c.addr := by unfold Ck.taken; split <;> rfl
@[simp] theorem Ck.taken_size (c : Ck) : c.taken.size = c.size := by unfold Ck.taken; split <;> rfl
theorem Ck.taken_st (c : Ck) : c.taken.st ≠ .free := by
  unfold Ck.taken; split
  · simp [Ck.use]
  · assumption

theorem Ck.view_taken (c : Ck) : c.taken.view = markUsed c.view := by
  simp [Ck.view, markUsed, Ck.taken_st]

theorem linkAt_taken {K : Ctx} {c : Ck} {fl fl' : Nat → List Ck} {x : Nat}
    (h : (K.fill [c.taken] fl').LinkAt x) : (K.fill [c] fl).LinkAt x := by
  obtain ⟨d, hd, hf, h1, h2⟩ := h
  rcases (K.has _ _ _).1 hd with h | h
  · rw [List.mem_singleton] at h; subst h; exact absurd hf c.taken_st
  · exact ⟨d, (K.has _ _ _).2 (Or.inr h), hf, h1, h2⟩

/-- One turn of the loop, without the jump. -/
theorem range_turn {pb : Nat} {K : Ctx} {c : Ck} {fl : Nat → List Ck} (W : (K.fill [c] fl).WF pb) :
    (K.fill [c.taken] (flDel fl [c])).WF pb ∧
    ∀ s, MemOK (stdPool pb) s (K.fill [c] fl) →
      ∃ s', (if infoState s.mem (c.addr + 15) = SFREE then
          getPtr s.mem (c.addr + 15) >>= fun f => freeListRemove (stdPool pb) s f
        else pure s) = Outcome.ok s' ∧
        MemOK (stdPool pb) s' (K.fill [c.taken] (flDel fl [c])) ∧
        ∀ x, ¬ PoolAt pb x → ¬ (K.fill [c] fl).LinkAt x → s'.mem x = s.mem x := by
  have hcH := K.has_of_mem fl (cs := [c]) (c := c) (by simp)
  have hcr := W.has_range hcH
  have hst : ∀ s, MemOK (stdPool pb) s (K.fill [c] fl) → CkMem s.mem (lastSz 0 K.p) c := fun s H =>
    (Ctx.hole_mem (H.segs _ (Ctx.seg_mem _ _ fl))).2.1.1
  by_cases hc : c.st = .free
  · have e : c.taken = c.use := by unfold Ck.taken; rw [if_pos hc]
    rw [e]
    obtain ⟨W1, R⟩ := remove_link W hc
    refine ⟨W1, fun s H => ?_⟩
    obtain ⟨s1, r1, r2, r3⟩ := R s H
    refine ⟨s1, ?_, r2, r3⟩
    rw [if_pos (by rw [infoState_hdr (hst s H), hc]; rfl), getPtr_large (hst s H).hdr (by omega), Outcome.ok_bind, r1]
  · have e : c.taken = c := by unfold Ck.taken; rw [if_neg hc]
    have e' : flDel fl [c] = fl := by
      funext i
      unfold flDel
      rw [List.filter_eq_self]
      intro d hd
      have := W.flFree i d hd
      simp only [List.mem_singleton, decide_eq_true_eq]
      rintro rfl
      exact hc this
    rw [e, e']
    refine ⟨W, fun s H => ⟨s, ?_, H, fun _ _ _ => rfl⟩⟩
    rw [if_neg (by rw [infoState_hdr (hst s H), num_ne_free hc]; decide)]
    rfl

theorem range_ok {pb : Nat} {q : List Ck} : ∀ (G : List Ck) (K : Ctx) (c : Ck) (fl : Nat → List Ck),
    (({ K with q := G ++ q } : Ctx).fill [c] fl).WF pb →
    (({ K with q := q } : Ctx).fill ((c :: G).map Ck.taken) (flDel fl (c :: G))).WF pb ∧
    ∀ s, MemOK (stdPool pb) s (({ K with q := G ++ q } : Ctx).fill [c] fl) →
      ∃ s', freeChunkRange (stdPool pb) s (c.addr + 15) ((G.getLast?.getD c).addr + 15) = .ok s' ∧
        MemOK (stdPool pb) s' (({ K with q := q } : Ctx).fill ((c :: G).map Ck.taken) (flDel fl (c :: G))) ∧
        ∀ x, ¬ PoolAt pb x → ¬ (({ K with q := G ++ q } : Ctx).fill [c] fl).LinkAt x → s'.mem x = s.mem x := by
  intro G
  induction G with
  | nil =>
    intro K c fl W
    obtain ⟨W1, R⟩ := range_turn W
    refine ⟨W1, fun s H => ?_⟩
    obtain ⟨s1, r1, r2, r3⟩ := R s H
    refine ⟨s1, ?_, r2, r3⟩
    rw [freeChunkRange, r1, Outcome.ok_bind, if_neg (by simp)]
    rfl
  | cons d G ih =>
    intro K c fl W
    obtain ⟨W1, R⟩ := range_turn W
    have hcH := Ctx.has_of_mem ({ K with q := d :: G ++ q } : Ctx) fl (cs := [c]) (c := c) (by simp)
    have hcr := W.has_range hcH
    have hcw := W.has_wf hcH
    obtain ⟨a, e, t1, t2, t3⟩ := Ctx.hole W
    have hce : c.addr + c.size = e := by
      have h1 := t2.1; have h2 := t2.2; simp only [Tiles] at h2; omega
    have hda : e = d.addr := t3.1.symm
    have e1 : ∀ fl', ({ K with q := d :: G ++ q } : Ctx).fill [c.taken] fl' =
        ({ ({ K with p := K.p ++ [c.taken] } : Ctx) with q := G ++ q } : Ctx).fill [d] fl' := fun fl' =>
      Ctx.fill_right K (G ++ q) d [c.taken] fl'
    have e2 : ∀ fl', ({ ({ K with p := K.p ++ [c.taken] } : Ctx) with q := q } : Ctx).fill ((d :: G).map Ck.taken) fl' =
        ({ K with q := q } : Ctx).fill ((c :: d :: G).map Ck.taken) fl' := fun fl' => by
      simp [Ctx.fill, Ctx.seg]
    have e3 : flDel (flDel fl [c]) (d :: G) = flDel fl (c :: d :: G) := by rw [flDel_append]; rfl
    rw [e1] at W1
    obtain ⟨W2, M⟩ := ih _ _ _ W1
    rw [e2, e3] at W2
    refine ⟨W2, fun s H => ?_⟩
    obtain ⟨s1, r1, r2, r3⟩ := R s H
    have hh : HdrAt s1.mem c.addr c.size (lastSz 0 K.p) c.taken.st.num := by
      have h := (Ctx.hole_mem (r2.segs _ (Ctx.seg_mem _ _ _))).2.1.1.hdr
      rwa [Ck.hdrSize_eq (by have := c.taken_st; unfold Ck.taken; split; simp [Ck.use]; exact hcw.nstop),
        Ck.taken_addr, Ck.taken_size] at h
    have r2' := r2
    rw [e1] at r2'
    obtain ⟨s2, q1, q2, q3⟩ := M s1 r2'
    rw [e2, e3] at q2
    refine ⟨s2, ?_, q2, ?_⟩
    · have hl : (G.getLast?.getD d).addr = ((d :: G).getLast?.getD c).addr := by
        cases G with
        | nil => rfl
        | cons g G => simp [List.getLast?_cons]
      have hlt : c.addr < (G.getLast?.getD d).addr := by
        have hmem : G.getLast?.getD d ∈ d :: G := by
          cases hg : G.getLast? with
          | none => simp
          | some g => simp only [Option.getD_some]; exact List.mem_cons_of_mem _ (List.mem_of_getLast? hg)
        obtain ⟨z, hz⟩ : ∃ z, z = G.getLast?.getD d := ⟨_, rfl⟩
        rw [← hz] at hmem ⊢
        have h3 := tiles_mem t3 (c := z) (by
          simp only [List.mem_append]; exact Or.inl (Or.inl hmem))
        have := hcw.ge
        omega
      rw [← hl, freeChunkRange, r1, Outcome.ok_bind, if_pos (by omega),
        getNextChunk_large hh (by omega) (by omega), hce, hda]
      exact q1
    · intro x h1 h2
      rw [q3 x h1, r3 x h1 h2]
      intro h
      rw [← e1] at h
      exact h2 (linkAt_taken h)

/-- The loop turns for ever on an end mark. -/
theorem range_stuck {P : Pool} {s : Heap} {v last : Nat} (h1 : infoState s.mem v ≠ SFREE) (h2 : getNextChunk s.mem v = v)
    (h3 : v < last) : freeChunkRange P s v last = .diverge := by
  have key : ∀ x, freeChunkRange P s v last = x → x = .diverge := by
    have := freeChunkRange.fixpoint_induct P last (fun f => f s v = .diverge) ?_ ?_
    · intro x hx; rw [← hx]; exact this
    · apply Lean.Order.admissible_apply (P := fun (_ : Heap) (g : Nat → Outcome Heap) => g v = .diverge)
      apply Lean.Order.admissible_apply (P := fun (_ : Nat) (g : Outcome Heap) => g = .diverge)
      exact Lean.Order.admissible_flatOrder (b := Outcome.diverge) (P := fun g => g = .diverge) rfl
    · intro f ih
      simp only
      rw [if_neg h1, Outcome.pure_eq, Outcome.ok_bind, if_pos h3, h2]
      exact ih
  exact key _ rfl

theorem range_past {pb : Nat} : ∀ (G : List Ck) (K : Ctx) (c : Ck) (fl : Nat → List Ck),
    (({ K with q := G } : Ctx).fill [c] fl).WF pb →
    ∀ s last, MemOK (stdPool pb) s (({ K with q := G } : Ctx).fill [c] fl) → K.base + K.size - 1 < last →
      freeChunkRange (stdPool pb) s (c.addr + 15) last = .diverge := by
  intro G
  induction G with
  | nil =>
    intro K c fl W s last H hlast
    obtain ⟨W1, R⟩ := range_turn W
    have hcH := Ctx.has_of_mem ({ K with q := [] } : Ctx) fl (cs := [c]) (c := c) (by simp)
    have hcr := W.has_range hcH
    have hcw := W.has_wf hcH
    have hsw := W.seg _ (Ctx.seg_mem ({ K with q := [] } : Ctx) [c] fl)
    obtain ⟨a, e, t1, t2, t3⟩ := Ctx.hole W
    have hce : c.addr + c.size = e := by
      have h1 := t2.1; have h2 := t2.2; simp only [Tiles] at h2; omega
    have hde : K.base + K.size - 16 = e := t3.1
    have he2 : e + 16 = K.base + K.size := by
      have := t3.2; simp only [Tiles, Seg.stop, Ctx.seg] at this; omega
    obtain ⟨s1, r1, r2, r3⟩ := R s H
    have hm := Ctx.hole_mem (r2.segs _ (Ctx.seg_mem _ _ _))
    have hh : HdrAt s1.mem c.addr c.size (lastSz 0 K.p) c.taken.st.num := by
      have h := hm.2.1.1.hdr
      rwa [Ck.hdrSize_eq (by have := c.taken_st; unfold Ck.taken; split; simp [Ck.use]; exact hcw.nstop),
        Ck.taken_addr, Ck.taken_size] at h
    have hs := hm.2.2.1
    have hsa : ((({ K with q := [] } : Ctx).seg [c.taken]).stop).addr = e := hde
    have hs2 := hs.hdr
    rw [hsa] at hs2
    have hs3 := infoState_hdr hs
    rw [hsa] at hs3
    have hlt := hsw.lt
    simp only [Ctx.seg] at hlt
    rw [freeChunkRange, r1, Outcome.ok_bind, if_pos (by omega), getNextChunk_large hh (by omega) (by omega), hce]
    refine range_stuck (by rw [hs3]; show (1 : Nat) ≠ 0; decide) ?_ (by omega)
    have := getNextChunk_large hs2 (by omega) (by show e + 15 + 0 < W64; omega)
    exact this
  | cons d G ih =>
    intro K c fl W s last H hlast
    obtain ⟨W1, R⟩ := range_turn W
    have hcH := Ctx.has_of_mem ({ K with q := d :: G } : Ctx) fl (cs := [c]) (c := c) (by simp)
    have hcr := W.has_range hcH
    have hcw := W.has_wf hcH
    obtain ⟨a, e, t1, t2, t3⟩ := Ctx.hole W
    have hce : c.addr + c.size = e := by
      have h1 := t2.1; have h2 := t2.2; simp only [Tiles] at h2; omega
    have hda : e = d.addr := t3.1.symm
    have he2 : d.addr + d.size ≤ K.base + K.size := (tiles_mem t3 (c := d) (by simp)).2
    have hdw := W.has_wf ((Ctx.has ({ K with q := d :: G } : Ctx) [c] fl d).2 (Or.inr (Or.inr (Or.inl (by simp)))))
    have e1 : ∀ fl', ({ K with q := d :: G } : Ctx).fill [c.taken] fl' =
        ({ ({ K with p := K.p ++ [c.taken] } : Ctx) with q := G } : Ctx).fill [d] fl' := fun fl' =>
      Ctx.fill_right K G d [c.taken] fl'
    rw [e1] at W1
    obtain ⟨s1, r1, r2, r3⟩ := R s H
    have hh : HdrAt s1.mem c.addr c.size (lastSz 0 K.p) c.taken.st.num := by
      have h := (Ctx.hole_mem (r2.segs _ (Ctx.seg_mem _ _ _))).2.1.1.hdr
      rwa [Ck.hdrSize_eq (by have := c.taken_st; unfold Ck.taken; split; simp [Ck.use]; exact hcw.nstop),
        Ck.taken_addr, Ck.taken_size] at h
    rw [e1] at r2
    have := hdw.ge
    have := hcw.ge
    rw [freeChunkRange, r1, Outcome.ok_bind, if_pos (by omega), getNextChunk_large hh (by omega) (by omega), hce, hda]
    exact ih { K with p := K.p ++ [c.taken] } d _ W1 s1 last r2 hlast

end MpcAlloc
