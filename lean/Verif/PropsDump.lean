import Verif.Dump
import Verif.PropsPoolRange

/-!
C79: the dump of a segment prints its chunks, each once and in order.
-/

namespace MpcAlloc

variable {σ : Type}

theorem dumpLine_of {m : Mem} {prev : Nat} {c : Ck} (h : CkMem m prev c) (hr : c.addr + 16 < W64) (hn : c.st ≠ .stop) :
    dumpLine m (c.addr + 15) = .ok c.view := by
  unfold dumpLine
  rw [getPtr_large h.hdr hr, Outcome.ok_bind, if_neg (by rw [h.hdr.type]; decide), getSize_large h.hdr hr, infoState_hdr h]
  unfold Ck.view Ck.hdrSize
  cases hs : c.st <;> simp_all [CkSt.num, SFREE]

/-- From a chunk to the address `e` of the end mark: the chunks behind it. -/
theorem dumpLoop_of {m : Mem} {e : Nat} (he : e + 16 < W64) : ∀ (l : List Ck) (prev : Nat) (c : Ck),
    ChunksMem m prev (c :: l) → Tiles c.addr (c :: l) e → (∀ d ∈ c :: l, d.WF) →
    dumpLoop m (c.addr + 15) e = .ok (l.map Ck.view) := by
  intro l
  induction l with
  | nil =>
    intro prev c hm ht hw
    have hcw := hw c List.mem_cons_self
    have h2 : c.addr + c.size = e := ht.2
    have hz : c.hdrSize = c.size := by unfold Ck.hdrSize; cases hs : c.st <;> first | rfl | exact absurd hs hcw.nstop
    have := hcw.ge
    rw [dumpLoop, getSize_large hm.1.hdr (by omega), vLarge_eq (by omega), hz, add64_eq (by omega), if_neg (by omega)]
    rfl
  | cons d l ih =>
    intro prev c hm ht hw
    have hcw := hw c List.mem_cons_self
    have hdw := hw d (List.mem_cons_of_mem _ List.mem_cons_self)
    have hd : d.addr = c.addr + c.size := ht.2.1
    have hle := tiles_le (show Tiles (c.addr + c.size + d.size) l e from ht.2.2)
    have hz : c.hdrSize = c.size := by unfold Ck.hdrSize; cases hs : c.st <;> first | rfl | exact absurd hs hcw.nstop
    have h1 := hcw.ge
    have h2 := hdw.ge
    have hn : getNextChunk m (c.addr + 15) = d.addr + 15 := by
      rw [getNextChunk_large hm.1.hdr (by omega) (by omega), hz]; omega
    rw [dumpLoop, getSize_large hm.1.hdr (by omega), vLarge_eq (by omega), hz, add64_eq (by omega), if_pos (by omega), hn,
      dumpLine_of hm.2.1 (by omega) hdw.nstop, Outcome.ok_bind,
      ih c.size d hm.2 (by rw [hd]; exact ⟨hd, ht.2.2⟩) (fun x hx => hw x (List.mem_cons_of_mem _ hx)), Outcome.ok_bind]
    rfl

/-- At the end mark, with the end of the buffer behind it, the loop goes round for ever. -/
theorem dumpLoop_stop {m : Mem} {a p : Nat} (h : HdrAt m a 0 p 1) (ha : a + 16 < W64) :
    dumpLoop m (a + 15) (a + 16) = .diverge := by
  have hn : getNextChunk m (a + 15) = a + 15 := by
    rw [getNextChunk_large h ha (by omega)]
  refine dumpLoop.fixpoint_induct m (a + 16) (fun f => f (a + 15) = .diverge) ?_ ?_
  · exact Lean.Order.admissible_apply (P := fun (_ : Nat) (f : Outcome (List (Nat × Nat × Bool))) => f = .diverge) (a + 15)
      (Lean.Order.admissible_flatOrder (b := Outcome.diverge) _ rfl)
  · intro f hf
    simp only
    rw [if_pos (by rw [getSize_large h ha, vLarge_eq ha, add64_eq (by omega)]; omega), hn, hf]
    unfold dumpLine
    rw [getPtr_large h ha, Outcome.ok_bind, if_neg (by rw [h.type]; decide), Outcome.ok_bind]
    rfl

theorem dumpLoop_diverge {m : Mem} {e : Nat} (he : e + 16 < W64) (hs : ∀ p, ∀ c : Ck, c.st = .stop → c.addr = e → CkMem m p c →
    dumpLoop m (c.addr + 15) (e + 16) = .diverge) : ∀ (l : List Ck) (prev : Nat) (c : Ck) (s : Ck), s.st = .stop → s.addr = e →
    ChunksMem m prev (c :: l ++ [s]) → Tiles c.addr (c :: l) e → (∀ d ∈ c :: l, d.WF) →
    dumpLoop m (c.addr + 15) (e + 16) = .diverge := by
  intro l
  induction l with
  | nil =>
    intro prev c s hs1 hs2 hm ht hw
    have hcw := hw c List.mem_cons_self
    have h2 : c.addr + c.size = e := ht.2
    have hz : c.hdrSize = c.size := by unfold Ck.hdrSize; cases hs : c.st <;> first | rfl | exact absurd hs hcw.nstop
    have h1 := hcw.ge
    have hsm : CkMem m c.size s := hm.2.1
    have hn : getNextChunk m (c.addr + 15) = s.addr + 15 := by
      rw [getNextChunk_large hm.1.hdr (by omega) (by omega), hz]; omega
    rw [dumpLoop, getSize_large hm.1.hdr (by omega), vLarge_eq (by omega), hz, add64_eq (by omega), if_pos (by omega), hn,
      hs _ s hs1 hs2 hsm]
    unfold dumpLine
    rw [getPtr_large hsm.hdr (by omega), Outcome.ok_bind, if_neg (by rw [hsm.hdr.type]; decide), Outcome.ok_bind]
    rfl
  | cons d l ih =>
    intro prev c s hs1 hs2 hm ht hw
    have hcw := hw c List.mem_cons_self
    have hdw := hw d (List.mem_cons_of_mem _ List.mem_cons_self)
    have hd : d.addr = c.addr + c.size := ht.2.1
    have hle := tiles_le (show Tiles (c.addr + c.size + d.size) l e from ht.2.2)
    have hz : c.hdrSize = c.size := by unfold Ck.hdrSize; cases hs : c.st <;> first | rfl | exact absurd hs hcw.nstop
    have h1 := hcw.ge
    have h2 := hdw.ge
    have hn : getNextChunk m (c.addr + 15) = d.addr + 15 := by
      rw [getNextChunk_large hm.1.hdr (by omega) (by omega), hz]; omega
    rw [dumpLoop, getSize_large hm.1.hdr (by omega), vLarge_eq (by omega), hz, add64_eq (by omega), if_pos (by omega), hn,
      dumpLine_of hm.2.1 (by omega) hdw.nstop, Outcome.ok_bind,
      ih c.size d s hs1 hs2 hm.2 (by rw [hd]; exact ⟨hd, ht.2.2⟩) (fun x hx => hw x (List.mem_cons_of_mem _ hx))]
    rfl

/-- A buffer of a chain, with its first chunk. -/
theorem HInv.dump {pb : Nat} {s : CS σ} {L : List Block} {B : List (Nat × Nat)} {A : AHeap} (H : HInv pb s L B A)
    {y : Nat × Nat} (hy : y ∈ B) : ∃ (g : Seg) (c : Ck) (l : List Ck), g.WF ∧ SegMem s.w.mem g ∧ g.base = y.1 ∧ g.size = y.2 ∧
      g.chunks = c :: l ∧ c.addr = y.1 + 32 ∧ BufChunks s.w.mem y.1 y.2 ((c :: l).map Ck.view) := by
  obtain ⟨g, hg, e1, e2, hch⟩ := H.seg hy
  have hw := H.wf.seg g hg
  have ht := hw.tiles
  cases hc : g.chunks with
  | nil =>
    rw [hc] at ht
    have : g.base + 32 = g.base + g.size - 16 := ht
    have := hw.ge
    omega
  | cons c l =>
    rw [hc] at ht hch
    exact ⟨g, c, l, hw, H.inv.mem.segs g hg, e1, e2, hc, by rw [← e1]; exact ht.1, hch⟩

/-- C79, what is printed: given the address of the first chunk and that of the end mark, the dump prints each chunk of
the buffer once and in order, with its size and state, but not the first one. Missing: the first chunk
(`C79_first_refuted`), and the addresses of the buffer (`C79_empty_refuted`, `C79_endless_refuted`). -/
theorem C79_dump_partial {S : Source σ} {C : Config} {pb : Nat} {s : CS σ} {L : List Block} {B : List (Nat × Nat)}
    (hf : C.reallocFactor ≠ 0) (h : Reach S C pb s L B) {y : Nat × Nat} (hy : y ∈ B) {l : List (Nat × Nat × Bool)}
    (hl : BufChunks s.w.mem y.1 y.2 l) :
    dumpSegment s.w.mem (y.1 + 32) (y.1 + y.2 - 16) = .ok l.tail := by
  obtain ⟨A, H⟩ := reach_inv hf h
  obtain ⟨g, c, l', hw, hm, e1, e2, hc, ha, hch⟩ := H.dump hy
  have h1 := hw.lt
  have h2 := hw.ge
  have hcm := hm.chunks
  rw [Seg.ext, chunksMem_append, hc] at hcm
  unfold dumpSegment
  rw [add64_eq (by omega), ← ha, getChunk_large hcm.1.1.hdr (CkSt.num_lt _) (by omega), Outcome.ok_bind, if_neg (by omega),
    dumpLoop_of (by omega) l' 0 c hcm.1 (by have := hw.tiles; rw [hc, e1, e2] at this; rw [ha]; exact this)
      (fun d hd => hw.chunks d (by rw [hc]; exact hd)), hl.unique hch]
  rfl

/-- C79 is false: the first chunk, which every buffer has, is not printed. -/
theorem C79_first_refuted {S : Source σ} {C : Config} {pb : Nat} {s : CS σ} {L : List Block} {B : List (Nat × Nat)}
    (hf : C.reallocFactor ≠ 0) (h : Reach S C pb s L B) {y : Nat × Nat} (hy : y ∈ B) {l : List (Nat × Nat × Bool)}
    (hl : BufChunks s.w.mem y.1 y.2 l) : dumpSegment s.w.mem (y.1 + 32) (y.1 + y.2 - 16) ≠ .ok l := by
  rw [C79_dump_partial hf h hy hl]
  intro e
  obtain ⟨A, H⟩ := reach_inv hf h
  obtain ⟨g, c, l', _, _, _, _, _, _, hch⟩ := H.dump hy
  rw [hl.unique hch] at e
  have := congrArg List.length (Outcome.ok.inj e)
  simp at this

/-- C79 is false: given the first and the last address of the buffer, as by `sctk_alloc_debug_dump_alloc_chain`
(sctk_alloc_debug.c 235), the dump takes the header of the bloc for a chunk that covers everything, and prints nothing. -/
theorem C79_empty_refuted {S : Source σ} {C : Config} {pb : Nat} {s : CS σ} {L : List Block} {B : List (Nat × Nat)}
    (hf : C.reallocFactor ≠ 0) (h : Reach S C pb s L B) {y : Nat × Nat} (hy : y ∈ B) :
    dumpSegment s.w.mem y.1 (y.1 + y.2) = .ok [] := by
  obtain ⟨A, H⟩ := reach_inv hf h
  obtain ⟨g, c, l', hw, hm, e1, e2, hc, ha, hch⟩ := H.dump hy
  have h1 := hw.lt
  have h2 := hw.ge
  have hh : HdrAt s.w.mem y.1 y.2 (hPrev s.w.mem y.1) 1 := ⟨by rw [← e1, ← e2]; exact hm.size, rfl, by rw [← e1]; exact hm.info⟩
  unfold dumpSegment
  rw [add64_eq (by omega), getChunk_large hh (by omega) (by omega), Outcome.ok_bind, if_neg (by omega), dumpLoop,
    getSize_large hh (by omega), vLarge_eq (by omega), add64_eq (by omega), if_neg (by omega)]

/-- C79 is false: given the first chunk and the last address of the buffer, the dump never ends; it prints the end mark,
whose size is 0, again and again. -/
theorem C79_endless_refuted {S : Source σ} {C : Config} {pb : Nat} {s : CS σ} {L : List Block} {B : List (Nat × Nat)}
    (hf : C.reallocFactor ≠ 0) (h : Reach S C pb s L B) {y : Nat × Nat} (hy : y ∈ B) :
    dumpSegment s.w.mem (y.1 + 32) (y.1 + y.2) = .diverge := by
  obtain ⟨A, H⟩ := reach_inv hf h
  obtain ⟨g, c, l', hw, hm, e1, e2, hc, ha, hch⟩ := H.dump hy
  have h1 := hw.lt
  have h2 := hw.ge
  have hcm := hm.chunks
  rw [Seg.ext, hc] at hcm
  have hcm1 : CkMem s.w.mem 0 c := hcm.1
  unfold dumpSegment
  rw [add64_eq (by omega), ← ha, getChunk_large hcm1.hdr (CkSt.num_lt _) (by omega), Outcome.ok_bind, if_neg (by omega)]
  have e : y.1 + y.2 = (y.1 + y.2 - 16) + 16 := by omega
  rw [e]
  refine dumpLoop_diverge (by omega) ?_ l' 0 c g.stop rfl (by unfold Seg.stop; rw [e1, e2]) hcm
    (by have := hw.tiles; rw [hc, e1, e2] at this; rw [ha]; exact this) (fun d hd => hw.chunks d (by rw [hc]; exact hd))
  intro p d hd he hdm
  have hdr := hdm.hdr
  unfold Ck.hdrSize at hdr
  rw [hd] at hdr
  rw [← he]
  exact dumpLoop_stop hdr (by omega)

/-- Hypotheses of the theorems above: a buffer with a used and a free chunk, of which at most one is printed. -/
example : ∃ (s : CS Unit) (L : List Block) (l : List (Nat × Nat × Bool)), Reach S0 Config.default 4096 s L [(8192, 4096)] ∧
    BufChunks s.w.mem 8192 4096 l ∧ 2 ≤ l.length ∧ dumpSegment s.w.mem 8224 12272 = .ok l.tail := by
  obtain ⟨s, L, l, a, z, c, d, h, hl, _, _, hc, h1, hd, h2⟩ := sample_range
  rw [List.nil_append, List.append_nil] at hl
  refine ⟨s, L, l, h, hl, ?_, C79_dump_partial (y := (8192, 4096)) (by decide) h (by simp) hl⟩
  match l, hc, hd with
  | [x], hc, hd =>
    rw [List.mem_singleton] at hc hd
    rw [hc] at h1
    rw [hd, h1] at h2
    cases h2
  | _ :: _ :: _, _, _ => simp

end MpcAlloc
