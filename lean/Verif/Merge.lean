import Verif.SplitMerge
import Mathlib.Data.List.Induction

/-
`mergeChunk` fuses a used chunk with the maximal runs of free chunks around it.
-/

namespace MpcAlloc

theorem Ctx.fill_left (K : Ctx) (p : List Ck) (f : Ck) (cs : List Ck) (fl : Nat → List Ck) :
    ({ K with p := p ++ [f] } : Ctx).fill cs fl = ({ K with p := p, q := cs ++ K.q } : Ctx).fill [f] fl := by
  simp [Ctx.fill, Ctx.seg]

theorem Ctx.fill_left' (K : Ctx) (p : List Ck) (f : Ck) (cs : List Ck) (fl : Nat → List Ck) :
    ({ K with p := p, q := cs ++ K.q } : Ctx).fill [f] fl = ({ K with p := p } : Ctx).fill (f :: cs) fl := by
  simp [Ctx.fill, Ctx.seg]

theorem Ctx.fill_right (K : Ctx) (q : List Ck) (f : Ck) (cs : List Ck) (fl : Nat → List Ck) :
    ({ K with q := f :: q } : Ctx).fill cs fl = ({ K with p := K.p ++ cs, q := q } : Ctx).fill [f] fl := by
  simp [Ctx.fill, Ctx.seg]

theorem Ctx.fill_right' (K : Ctx) (q : List Ck) (f : Ck) (cs : List Ck) (fl : Nat → List Ck) :
    ({ K with p := K.p ++ cs, q := q } : Ctx).fill [f] fl = ({ K with q := q } : Ctx).fill (cs ++ [f]) fl := by
  simp [Ctx.fill, Ctx.seg]

/-- Removing a chunk does not create free bytes. -/
theorem freeAt_remove {K : Ctx} {c : Ck} {fl fl' : Nat → List Ck} {x : Nat}
    (h : (K.fill [c.use] fl').FreeAt x) : (K.fill [c] fl).FreeAt x := by
  obtain ⟨d, hd, hf, h1, h2⟩ := h
  rcases (K.has _ _ _).1 hd with h | h
  · rw [List.mem_singleton] at h; subst h; simp [Ck.use] at hf
  · exact ⟨d, (K.has _ _ _).2 (Or.inr h), hf, h1, h2⟩

theorem infoState_hdr {m : Mem} {p : Nat} {c : Ck} (h : CkMem m p c) :
    infoState m (c.addr + 15) = c.st.num := h.hdr.state (CkSt.num_lt _)

theorem getPrevChunk_nil {m : Mem} {c : Ck} (hr : c.addr + 16 < W64) (h : CkMem m 0 c) :
    getPrevChunk m (c.addr + 15) = 0 := by
  unfold getPrevChunk
  rw [getPrevSize_large h.hdr hr, if_pos rfl]

theorem getPrevChunk_some {m : Mem} {c d : Ck} (hr : c.addr + 16 < W64) (hd : 0 < d.size)
    (he : d.addr + d.size = c.addr) (h : CkMem m d.size c) :
    getPrevChunk m (c.addr + 15) = d.addr + 15 := by
  unfold getPrevChunk
  rw [getPrevSize_large h.hdr hr, if_neg (by omega), sub64_eq (by omega) (by omega)]
  omega

theorem num_ne_free {st : CkSt} (h : st ≠ .free) : st.num = 1 := by
  cases st <;> simp_all [CkSt.num]

theorem mergeLeft_stop {P : Pool} {s : Heap} {first cur : Nat}
    (h : cur = 0 ∨ infoState s.mem cur = 1) : mergeLeft P s first cur = .ok (s, first) := by
  rw [mergeLeft, if_neg]
  rintro ⟨h1, h2⟩
  rcases h with h | h
  · exact h1 h
  · rw [h] at h2; simp [SFREE] at h2

theorem mergeRight_stop {P : Pool} {s : Heap} {first cur : Nat}
    (h : cur = 0 ∨ infoState s.mem cur = 1) : mergeRight P s first cur = .ok (s, first) := by
  rw [mergeRight, if_neg]
  rintro ⟨h1, h2⟩
  rcases h with h | h
  · exact h1 h
  · rw [h] at h2; simp [SFREE] at h2

/-- The walk to the left stops at once when the chunk on the left is not free. -/
theorem mergeLeft_fence {pb : Nat} {p' : List Ck} (hp' : ∀ l d, p' = l ++ [d] → d.st ≠ .free)
    (K : Ctx) (c : Ck) (cs : List Ck) (fl : Nat → List Ck) (W : (({ K with p := p' } : Ctx).fill (c :: cs) fl).WF pb)
    {s : Heap} (H : MemOK (stdPool pb) s (({ K with p := p' } : Ctx).fill (c :: cs) fl)) (first : Nat) :
    mergeLeft (stdPool pb) s first (getPrevChunk s.mem (c.addr + 15)) = .ok (s, first) := by
  have hr := W.has_range (({ K with p := p' } : Ctx).has_of_mem fl (cs := c :: cs) (c := c) (by simp))
  have hge := (W.has_wf (({ K with p := p' } : Ctx).has_of_mem fl (cs := c :: cs) (c := c) (by simp))).ge
  obtain ⟨a, e, t1, t2, t3⟩ := Ctx.hole W
  obtain ⟨c1, c2, c3⟩ := Ctx.hole_mem (H.segs _ (Ctx.seg_mem _ _ fl))
  simp only at t1 c1 c2
  apply mergeLeft_stop
  rcases List.eq_nil_or_concat p' with rfl | ⟨l, d, hd⟩
  · left; exact getPrevChunk_nil (by omega) c2.1
  · right
    rw [List.concat_eq_append] at hd
    have hdf := hp' l d hd
    subst hd
    obtain ⟨b, t4, t5⟩ := tiles_append.1 t1
    have hda : d.addr + d.size = c.addr := by
      have := t5.1; have h2 := t5.2; have h3 := t2.1
      simp only [Tiles] at h2; omega
    have hds : 0 < d.size := by
      have := (W.has_wf (c := d) ((Ctx.has _ _ _ _).2 (Or.inr (Or.inl (by simp))))).ge; omega
    have hc := c2.1
    rw [lastSz_append] at hc
    rw [getPrevChunk_some (by omega) hds hda hc]
    rw [infoState_hdr (chunksMem_mid.1 c1).2.1]
    exact num_ne_free hdf

theorem mergeLeft_ok {pb : Nat} {p' : List Ck} (hp' : ∀ l d, p' = l ++ [d] → d.st ≠ .free) :
    ∀ (F : List Ck) (K : Ctx) (c : Ck) (cs : List Ck) (fl : Nat → List Ck),
      (({ K with p := p' ++ F } : Ctx).fill (c :: cs) fl).WF pb → (∀ f ∈ F, f.st = .free) →
      (({ K with p := p' } : Ctx).fill (F.map Ck.use ++ c :: cs) (flDel fl F)).WF pb ∧
      ∀ s, MemOK (stdPool pb) s (({ K with p := p' ++ F } : Ctx).fill (c :: cs) fl) →
        ∃ s', mergeLeft (stdPool pb) s (c.addr + 15) (getPrevChunk s.mem (c.addr + 15)) =
            .ok (s', (F.head?.getD c).addr + 15) ∧
          MemOK (stdPool pb) s' (({ K with p := p' } : Ctx).fill (F.map Ck.use ++ c :: cs) (flDel fl F)) ∧
          ∀ x, ¬ PoolAt pb x → ¬ (({ K with p := p' ++ F } : Ctx).fill (c :: cs) fl).FreeAt x →
            s'.mem x = s.mem x := by
  intro F
  induction F using List.reverseRecOn with
  | nil =>
    intro K c cs fl W _
    simp only [List.append_nil, List.map_nil, List.nil_append, flDel_nil] at W ⊢
    refine ⟨W, fun s H => ⟨s, mergeLeft_fence hp' K c cs fl W H _, H, fun _ _ _ => rfl⟩⟩
  | append_singleton F f ih =>
    intro K c cs fl W hF
    have hff : f.st = .free := hF f (by simp)
    rw [← List.append_assoc] at W ⊢
    rw [Ctx.fill_left] at W ⊢
    obtain ⟨W1, R⟩ := remove_ok W hff
    rw [Ctx.fill_left'] at W1
    obtain ⟨W2, M⟩ := ih K f.use (c :: cs) (flDel fl [f]) W1 (fun g hg => hF g (by simp [hg]))
    have e1 : flDel (flDel fl [f]) F = flDel fl (F ++ [f]) := by
      rw [flDel_append]; apply flDel_perm; intro x; simp [or_comm]
    have e2 : F.map Ck.use ++ f.use :: c :: cs = (F ++ [f]).map Ck.use ++ c :: cs := by simp
    rw [e1, e2] at W2 M
    refine ⟨W2, fun s H => ?_⟩
    obtain ⟨s1, r1, r2, r3⟩ := R s H
    rw [Ctx.fill_left'] at r2
    obtain ⟨s2, q1, q2, q3⟩ := M s1 r2
    refine ⟨s2, ?_, q2, ?_⟩
    · -- the current chunk is `f`, free
      have hfH := Ctx.has_of_mem ({ K with p := p' ++ F, q := (c :: cs) ++ K.q } : Ctx) fl (cs := [f]) (c := f) (by simp)
      have hfr := W.has_range hfH
      have hfw := W.has_wf hfH
      obtain ⟨a, e, t1, t2, t3⟩ := Ctx.hole W
      obtain ⟨c1, c2, c3⟩ := Ctx.hole_mem (H.segs _ (Ctx.seg_mem _ _ fl))
      simp only [List.cons_append] at t3 c3
      have hfa : f.addr + f.size = c.addr := by
        have h1 := t2.1; have h2 := t2.2; have h3 := t3.1
        simp only [Tiles] at h2; omega
      have hge := hfw.ge
      have hcr : c.addr + 16 < W64 := by omega
      have hcur : getPrevChunk s.mem (c.addr + 15) = f.addr + 15 := by
        refine getPrevChunk_some hcr (by omega) hfa ?_
        exact c3.1
      rw [hcur, mergeLeft, if_pos]
      · rw [getPtr_large c2.1.hdr (by omega)]
        simp only [Outcome.ok_bind]
        rw [r1]
        simp only [Outcome.ok_bind]
        have : (F.head?.getD f.use).addr = ((F ++ [f]).head?.getD c).addr := by
          cases F <;> rfl
        rw [← this]
        exact q1
      · refine ⟨by omega, ?_⟩
        rw [infoState_hdr c2.1, hff]; rfl
    · intro x h1 h2
      rw [q3 x h1, r3 x h1 h2]
      intro h
      refine h2 ?_
      rw [← Ctx.fill_left'] at h
      exact freeAt_remove h

theorem mergeRight_ok {pb : Nat} {q' : List Ck} (hq' : ∀ l d, q' = d :: l → d.st ≠ .free) :
    ∀ (G : List Ck) (K : Ctx) (c : Ck) (cs : List Ck) (fl : Nat → List Ck),
      (({ K with q := G ++ q' } : Ctx).fill (cs ++ [c]) fl).WF pb → (∀ f ∈ G, f.st = .free) →
      (({ K with q := q' } : Ctx).fill (cs ++ [c] ++ G.map Ck.use) (flDel fl G)).WF pb ∧
      ∀ s, MemOK (stdPool pb) s (({ K with q := G ++ q' } : Ctx).fill (cs ++ [c]) fl) →
        ∃ s', mergeRight (stdPool pb) s (c.addr + 15) (getNextChunk s.mem (c.addr + 15)) =
            .ok (s', (G.getLast?.getD c).addr + 15) ∧
          MemOK (stdPool pb) s' (({ K with q := q' } : Ctx).fill (cs ++ [c] ++ G.map Ck.use) (flDel fl G)) ∧
          ∀ x, ¬ PoolAt pb x → ¬ (({ K with q := G ++ q' } : Ctx).fill (cs ++ [c]) fl).FreeAt x →
            s'.mem x = s.mem x := by
  intro G
  induction G with
  | nil =>
    intro K c cs fl W _
    simp only [List.nil_append, List.map_nil, List.append_nil, flDel_nil] at W ⊢
    refine ⟨W, fun s H => ⟨s, ?_, H, fun _ _ _ => rfl⟩⟩
    have hcH := ({ K with q := q' } : Ctx).has_of_mem fl (cs := cs ++ [c]) (c := c) (by simp)
    have hr := W.has_range hcH
    have hcw := W.has_wf hcH
    obtain ⟨a, e, t1, t2, t3⟩ := Ctx.hole W
    obtain ⟨c1, c2, c3⟩ := Ctx.hole_mem (H.segs _ (Ctx.seg_mem _ _ fl))
    obtain ⟨b, t4, t5⟩ := tiles_append.1 t2
    have hce : c.addr + c.size = e := by
      have h1 := t5.1; have h2 := t5.2; simp only [Tiles] at h2; omega
    have hh := (chunksMem_mid.1 c2).2.1.hdr
    rw [Ck.hdrSize_eq hcw.nstop] at hh
    apply mergeRight_stop
    right
    rw [getNextChunk_large hh (by omega) (by omega), hce]
    simp only at t3 c3
    cases q' with
    | nil =>
      have h1 := t3.1
      have h2 := infoState_hdr c3.1
      rw [h1] at h2
      rw [h2]; rfl
    | cons d l =>
      have h1 := t3.1
      have h2 := infoState_hdr c3.1
      rw [h1] at h2
      rw [h2]
      exact num_ne_free (hq' l d rfl)
  | cons f G ih =>
    intro K c cs fl W hG
    have hff : f.st = .free := hG f (by simp)
    rw [List.cons_append] at W ⊢
    rw [Ctx.fill_right] at W ⊢
    obtain ⟨W1, R⟩ := remove_ok W hff
    rw [Ctx.fill_right'] at W1
    obtain ⟨W2, M⟩ := ih K f.use (cs ++ [c]) (flDel fl [f]) W1 (fun g hg => hG g (by simp [hg]))
    have e1 : flDel (flDel fl [f]) G = flDel fl (f :: G) := by
      rw [flDel_append]; rfl
    have e2 : cs ++ [c] ++ [f.use] ++ G.map Ck.use = cs ++ [c] ++ (f :: G).map Ck.use := by simp
    rw [e1, e2] at W2 M
    refine ⟨W2, fun s H => ?_⟩
    obtain ⟨s1, r1, r2, r3⟩ := R s H
    rw [Ctx.fill_right'] at r2
    obtain ⟨s2, q1, q2, q3⟩ := M s1 r2
    refine ⟨s2, ?_, q2, ?_⟩
    · have hfH := Ctx.has_of_mem ({ K with p := K.p ++ (cs ++ [c]), q := G ++ q' } : Ctx) fl (cs := [f]) (c := f) (by simp)
      have hfr := W.has_range hfH
      have hcH : (({ K with p := K.p ++ (cs ++ [c]), q := G ++ q' } : Ctx).fill [f] fl).Has c :=
        (Ctx.has _ _ _ _).2 (Or.inr (Or.inl (by simp)))
      have hcw := W.has_wf hcH
      obtain ⟨a, e, t1, t2, t3⟩ := Ctx.hole W
      obtain ⟨c1, c2, c3⟩ := Ctx.hole_mem (H.segs _ (Ctx.seg_mem _ _ fl))
      simp only [← List.append_assoc] at t1 c1
      obtain ⟨b, t4, t5⟩ := tiles_append.1 t1
      have hca : c.addr + c.size = f.addr := by
        have h1 := t5.1; have h2 := t5.2; have h3 := t2.1
        simp only [Tiles] at h2; omega
      have hh := (chunksMem_mid.1 c1).2.1.hdr
      rw [Ck.hdrSize_eq hcw.nstop] at hh
      rw [getNextChunk_large hh (by omega) (by omega), hca, mergeRight, if_pos]
      · rw [getPtr_large c2.1.hdr (by omega)]
        simp only [Outcome.ok_bind]
        rw [r1]
        simp only [Outcome.ok_bind]
        have : (G.getLast?.getD f.use).addr = ((f :: G).getLast?.getD c).addr := by
          cases G with
          | nil => rfl
          | cons g G => simp [List.getLast?_cons]
        rw [← this]
        exact q1
      · refine ⟨by omega, ?_⟩
        rw [infoState_hdr c2.1, hff]; rfl
    · intro x h1 h2
      rw [q3 x h1, r3 x h1 h2]
      intro h
      refine h2 ?_
      rw [← Ctx.fill_right'] at h
      exact freeAt_remove h

/-- Maximal run of free chunks at the start of a list. -/
theorem exists_run_right (q : List Ck) : ∃ G q', q = G ++ q' ∧ (∀ f ∈ G, f.st = .free) ∧
    ∀ l d, q' = d :: l → d.st ≠ .free := by
  induction q with
  | nil => exact ⟨[], [], rfl, by simp, by simp⟩
  | cons c q ih =>
    by_cases hc : c.st = .free
    · obtain ⟨G, q', h1, h2, h3⟩ := ih
      exact ⟨c :: G, q', by simp [h1], by simpa [hc] using h2, h3⟩
    · refine ⟨[], c :: q, rfl, by simp, ?_⟩
      intro l d h
      simp only [List.cons.injEq] at h
      rw [← h.1]; exact hc

/-- Maximal run of free chunks at the end of a list. -/
theorem exists_run_left (p : List Ck) : ∃ p' F, p = p' ++ F ∧ (∀ f ∈ F, f.st = .free) ∧
    ∀ l d, p' = l ++ [d] → d.st ≠ .free := by
  induction p using List.reverseRecOn with
  | nil => exact ⟨[], [], rfl, by simp, by simp⟩
  | append_singleton p c ih =>
    by_cases hc : c.st = .free
    · obtain ⟨p', F, h1, h2, h3⟩ := ih
      refine ⟨p', F ++ [c], by simp [h1], ?_, h3⟩
      intro f hf
      rcases List.mem_append.1 hf with hf | hf
      · exact h2 f hf
      · rw [List.mem_singleton] at hf; subst hf; exact hc
    · refine ⟨p ++ [c], [], by simp, by simp, ?_⟩
      intro l d h
      have := List.append_inj_right' h rfl
      simp only [List.cons.injEq, and_true] at this
      rw [← this]; exact hc

theorem tiles_map_use {a e : Nat} {l : List Ck} : Tiles a (l.map Ck.use) e ↔ Tiles a l e := by
  induction l generalizing a with
  | nil => rfl
  | cons c l ih =>
    simp only [List.map_cons, Tiles]
    rw [ih]; rfl

theorem Ctx.fill_run (K : Ctx) (p F : List Ck) (cs G q : List Ck) (fl : Nat → List Ck) :
    ({ K with p := p ++ F, q := G ++ q } : Ctx).fill cs fl =
      ({ K with p := p, q := q } : Ctx).fill (F ++ cs ++ G) fl := by
  simp [Ctx.fill, Ctx.seg]

theorem freeAt_run {K : Ctx} {p F q : List Ck} {c : Ck} {fl fl' : Nat → List Ck} {x : Nat}
    (hc : c.st ≠ .free)
    (h : (({ K with p := p, q := q } : Ctx).fill (F.map Ck.use ++ [c]) fl').FreeAt x) :
    (({ K with p := p ++ F, q := q } : Ctx).fill [c] fl).FreeAt x := by
  obtain ⟨d, hd, hdf, hd1, hd2⟩ := h
  refine ⟨d, ?_, hdf, hd1, hd2⟩
  rcases (Ctx.has _ _ _ _).1 hd with hd | hd
  · simp only [List.mem_append, List.mem_map, List.mem_singleton] at hd
    rcases hd with ⟨f, _, rfl⟩ | rfl
    · simp [Ck.use] at hdf
    · exact absurd hdf hc
  · refine (Ctx.has _ _ _ _).2 (Or.inr ?_)
    rcases hd with hd | hd | hd
    · exact Or.inl (List.mem_append_left _ hd)
    · exact Or.inr (Or.inl hd)
    · exact Or.inr (Or.inr hd)

/-- Every byte of a tiled range is in one of the chunks. -/
theorem tiles_cover {e x : Nat} : ∀ (l : List Ck) (b : Nat), Tiles b l e → b ≤ x → x < e →
    ∃ d ∈ l, d.addr ≤ x ∧ x < d.addr + d.size := by
  intro l
  induction l with
  | nil => intro b h hb hx; simp only [Tiles] at h; omega
  | cons d l ih =>
    rintro b ⟨rfl, h⟩ hb hxe
    by_cases hx : x < d.addr + d.size
    · exact ⟨d, by simp, hb, hx⟩
    · obtain ⟨d', h1, h2⟩ := ih _ h (by omega) hxe
      exact ⟨d', by simp [h1], h2⟩

/-- The merge, with what is left of the old headers inside of the merged chunk. -/
theorem merge_stale {pb : Nat} {K : Ctx} {p' F G q' : List Ck} {c : Ck} {fl : Nat → List Ck} {a e : Nat}
    (W : (({ K with p := p' ++ F, q := G ++ q' } : Ctx).fill [c] fl).WF pb) (hc : c.st ≠ .free)
    (hF : ∀ f ∈ F, f.st = .free) (hG : ∀ f ∈ G, f.st = .free)
    (hp' : ∀ l d, p' = l ++ [d] → d.st ≠ .free) (hq' : ∀ l d, q' = d :: l → d.st ≠ .free)
    (ha : Tiles (K.base + 32) p' a) (he : Tiles a (F ++ [c] ++ G) e) :
    (({ K with p := p', q := q' } : Ctx).fill [⟨a, e - a, .used none⟩] (flDel fl (F ++ G))).WF pb ∧
    ∀ s, MemOK (stdPool pb) s (({ K with p := p' ++ F, q := G ++ q' } : Ctx).fill [c] fl) →
      ∃ s', mergeChunk (stdPool pb) s (c.addr + 15) = .ok (s', a + 15) ∧
        MemOK (stdPool pb) s'
          (({ K with p := p', q := q' } : Ctx).fill [⟨a, e - a, .used none⟩] (flDel fl (F ++ G))) ∧
        (∀ x, ¬ PoolAt pb x → ¬ (({ K with p := p' ++ F, q := G ++ q' } : Ctx).fill [c] fl).FreeAt x →
          ¬ (({ K with p := p' ++ F, q := G ++ q' } : Ctx).fill [c] fl).HdrIn x →
          (x < c.addr ∨ c.addr + c.size ≤ x) → s'.mem x = s.mem x) ∧
        ∃ s2, MemOK (stdPool pb) s2
            (({ K with p := p', q := q' } : Ctx).fill (F.map Ck.use ++ [c] ++ G.map Ck.use) (flDel fl (F ++ G))) ∧
          ∀ x, a + 16 ≤ x → x < e → s'.mem x = s2.mem x := by
  obtain ⟨W1, L⟩ := mergeLeft_ok hp' F { K with q := G ++ q' } c [] fl W hF
  obtain ⟨W2, R⟩ := mergeRight_ok hq' G { K with p := p' } c (F.map Ck.use) (flDel fl F) W1 hG
  rw [flDel_append] at W2 R
  -- the run of used chunks
  have hu : ∀ d ∈ F.map Ck.use ++ [c] ++ G.map Ck.use, d.st ≠ .free := by
    intro d hd
    simp only [List.mem_append, List.mem_map, List.mem_singleton] at hd
    rcases hd with (⟨f, _, rfl⟩ | rfl) | ⟨f, _, rfl⟩
    · simp [Ck.use]
    · exact hc
    · simp [Ck.use]
  have he' : Tiles a (F.map Ck.use ++ [c] ++ G.map Ck.use) e := by
    obtain ⟨b, h1, h2⟩ := tiles_append.1 he
    obtain ⟨b', h3, h4⟩ := tiles_append.1 h1
    exact tiles_append.2 ⟨b, tiles_append.2 ⟨b', tiles_map_use.2 h3, h4⟩, tiles_map_use.2 h2⟩
  have hcb := tiles_mem he (c := c) (by simp)
  have hcge := (W.has_wf (Ctx.has_of_mem _ fl (cs := [c]) (c := c) (by simp))).ge
  have W3 := wf_fuse (a := a) (e := e) W2 hu (by simp) ha he'
  refine ⟨W3, fun s H => ?_⟩
  obtain ⟨s1, l1, l2, l3⟩ := L s H
  obtain ⟨s2, r1, r2, r3⟩ := R s1 l2
  have hfuse := fuse_ok W2 hu (by omega) ha he' r2
  have hb := Ctx.bounds W2 ha he'
  simp only at hb
  -- first and last chunk of the run
  obtain ⟨c1, c2, c3⟩ := Ctx.hole_mem (r2.segs _ (Ctx.seg_mem _ _ _))
  have hlast := lastSz_le ha
  simp only at c1 c2
  obtain ⟨z, hz⟩ : ∃ z, z = lastSz 0 p' := ⟨_, rfl⟩
  rw [← hz] at c2 hlast
  have hfirst : ∃ w d, HdrAt s2.mem a w z d := by
    obtain ⟨f, r, hfr⟩ : ∃ f r, F.map Ck.use ++ [c] ++ G.map Ck.use = f :: r := by
      cases F <;> simp
    rw [hfr] at c2 he'
    have := c2.1.hdr
    rw [he'.1] at this
    exact ⟨_, _, this⟩
  have hfa : (F.head?.getD c).addr = a := by
    cases F with
    | nil => exact he.1
    | cons f F => exact he.1
  have hlastc : ∃ g zz d, (G.getLast?.getD c).addr = g ∧ HdrAt s2.mem g (e - g) zz d ∧ a ≤ g ∧ g + 16 ≤ e := by
    rcases List.eq_nil_or_concat G with rfl | ⟨G0, g, hg⟩
    · have h1 := (chunksMem_mid.1 (show ChunksMem s2.mem z (F.map Ck.use ++ c :: []) by simpa using c2)).2.1.hdr
      have hcw := W.has_wf (Ctx.has_of_mem _ fl (cs := [c]) (c := c) (by simp))
      rw [Ck.hdrSize_eq hcw.nstop] at h1
      have hce : c.addr + c.size = e := by
        obtain ⟨b, h3, h4⟩ := tiles_append.1 (show Tiles a (F ++ [c]) e by simpa using he)
        have h5 := h4.1; have h6 := h4.2; simp only [Tiles] at h6; omega
      refine ⟨c.addr, lastSz z (F.map Ck.use), c.st.num, rfl, ?_, hcb.1, by omega⟩
      rw [show e - c.addr = c.size by omega]
      exact h1
    · rw [List.concat_eq_append] at hg
      subst hg
      have e2 : F.map Ck.use ++ [c] ++ (G0 ++ [g]).map Ck.use = (F.map Ck.use ++ [c] ++ G0.map Ck.use) ++ g.use :: [] := by
        simp
      rw [e2] at c2
      have h1 := (chunksMem_mid.1 c2).2.1.hdr
      have hgH : ((({ K with p := p' ++ F, q := (G0 ++ [g]) ++ q' } : Ctx)).fill [c] fl).Has g :=
        (Ctx.has _ _ _ _).2 (Or.inr (Or.inr (Or.inl (by simp))))
      have hgw := W.has_wf hgH
      have hgge := hgw.ge
      rw [Ck.hdrSize_eq hgw.use.nstop] at h1
      have hge : g.addr + g.size = e := by
        have e3 : F ++ [c] ++ (G0 ++ [g]) = (F ++ [c] ++ G0) ++ [g] := by simp
        rw [e3] at he
        obtain ⟨b, h3, h4⟩ := tiles_append.1 he
        have h5 := h4.1; have h6 := h4.2; simp only [Tiles] at h6; omega
      have hgb := tiles_mem he (c := g) (by simp)
      refine ⟨g.addr, lastSz z (F.map Ck.use ++ [c] ++ G0.map Ck.use), g.use.st.num, by simp, ?_, hgb.1, by omega⟩
      rw [show e - g.addr = g.size by omega]
      exact h1
  obtain ⟨fw, fd, hfh⟩ := hfirst
  obtain ⟨g, gz, gd, hga, hgh, hg1, hg2⟩ := hlastc
  refine ⟨_, ?_, hfuse, ?_, s2, r2, ?_⟩
  · unfold mergeChunk
    have hst : infoState s.mem (c.addr + 15) = SALLOC := by
      obtain ⟨k1, k2, k3⟩ := Ctx.hole_mem (H.segs _ (Ctx.seg_mem _ _ fl))
      rw [infoState_hdr k2.1, num_ne_free hc]; rfl
    rw [if_neg (by simp [hst])]
    rw [show mergeLeft (stdPool pb) s (c.addr + 15) (getPrevChunk s.mem (c.addr + 15)) = _ from l1]
    simp only [Outcome.ok_bind]
    rw [show mergeRight (stdPool pb) s1 (c.addr + 15) (getNextChunk s1.mem (c.addr + 15)) = _ from r1]
    simp only [Outcome.ok_bind]
    rw [hga, hfa, getPtr_large hgh (by omega), getPtr_large hfh (by omega), Outcome.ok_bind,
      Outcome.ok_bind]
    have e4 : getNextChunk s2.mem (g + 15) = e + 15 := by
      rw [getNextChunk_large hgh (by omega) (by omega)]; omega
    have e5 : add64 (sub64 g a) (getSize s2.mem (g + 15)) = e - a := by
      rw [getSize_large hgh (by omega), sub64_eq hg1 (by omega)]
      have e6 : g - a + (e - g) < W64 := by omega
      rw [add64_eq e6]; omega
    rw [e4, e5, vLarge_eq (by omega : e + 16 < W64)]
    have hfh' : HdrAt (setPrevSize s2.mem e (e - a)) a fw z fd := by
      refine hfh.congr (fun x h1 h2 => ?_) (fun x h1 h2 => ?_)
      · unfold setPrevSize; exact writeLE_other (by omega)
      · unfold setPrevSize; exact writeLE_other (by omega)
    rw [getPtr_large hfh' (by omega), Outcome.ok_bind, Outcome.ok_bind]
    unfold setupChunk
    rw [getPrevSize_large hfh' (by omega), largeToV_eq (by omega), hz]
    rfl
  · intro x h1 h2 h3 h4
    have hx1 : x < a ∨ e ≤ x := by
      by_contra hn
      have hxin : a ≤ x ∧ x < e := by omega
      have hcov := tiles_cover _ _ he hxin.1 hxin.2
      obtain ⟨d, hd, hd1, hd2⟩ := hcov
      simp only [List.mem_append, List.mem_singleton] at hd
      rcases hd with (hd | rfl) | hd
      · exact h2 ⟨d, (Ctx.has _ _ _ _).2 (Or.inr (Or.inl (by simp [hd]))), hF d hd, hd1, hd2⟩
      · omega
      · exact h2 ⟨d, (Ctx.has _ _ _ _).2 (Or.inr (Or.inr (Or.inl (by simp [hd])))), hG d hd, hd1, hd2⟩
    have hx2 : ¬ (e ≤ x ∧ x < e + 16) := by
      rintro ⟨hx1, hx2⟩
      apply h3
      rw [Ctx.fill_run] at W ⊢
      exact Ctx.hdrIn_next W ha he hx1 hx2
    have hm : setupLargeHeader (setPrevSize s2.mem e (e - a)) a (e - a) (sub64 a (lastSz 0 p')) x = s2.mem x := by
      rw [setupLargeHeader_other (by omega)]
      unfold setPrevSize; exact writeLE_other (by omega)
    refine hm.trans ?_
    rw [r3 x h1, l3 x h1 h2]
    exact fun h => h2 (freeAt_run hc h)
  · intro x hx1 hx2
    show setupLargeHeader (setPrevSize s2.mem e (e - a)) a (e - a) (sub64 a (lastSz 0 p')) x = s2.mem x
    rw [setupLargeHeader_other (by omega)]
    unfold setPrevSize; exact writeLE_other (by omega)

theorem merge_ok {pb : Nat} {K : Ctx} {p' F G q' : List Ck} {c : Ck} {fl : Nat → List Ck} {a e : Nat}
    (W : (({ K with p := p' ++ F, q := G ++ q' } : Ctx).fill [c] fl).WF pb) (hc : c.st ≠ .free)
    (hF : ∀ f ∈ F, f.st = .free) (hG : ∀ f ∈ G, f.st = .free)
    (hp' : ∀ l d, p' = l ++ [d] → d.st ≠ .free) (hq' : ∀ l d, q' = d :: l → d.st ≠ .free)
    (ha : Tiles (K.base + 32) p' a) (he : Tiles a (F ++ [c] ++ G) e) :
    (({ K with p := p', q := q' } : Ctx).fill [⟨a, e - a, .used none⟩] (flDel fl (F ++ G))).WF pb ∧
    ∀ s, MemOK (stdPool pb) s (({ K with p := p' ++ F, q := G ++ q' } : Ctx).fill [c] fl) →
      ∃ s', mergeChunk (stdPool pb) s (c.addr + 15) = .ok (s', a + 15) ∧
        MemOK (stdPool pb) s'
          (({ K with p := p', q := q' } : Ctx).fill [⟨a, e - a, .used none⟩] (flDel fl (F ++ G))) ∧
        ∀ x, ¬ PoolAt pb x → ¬ (({ K with p := p' ++ F, q := G ++ q' } : Ctx).fill [c] fl).FreeAt x →
          ¬ (({ K with p := p' ++ F, q := G ++ q' } : Ctx).fill [c] fl).HdrIn x →
          (x < c.addr ∨ c.addr + c.size ≤ x) → s'.mem x = s.mem x := by
  obtain ⟨h1, h2⟩ := merge_stale W hc hF hG hp' hq' ha he
  refine ⟨h1, fun s H => ?_⟩
  obtain ⟨s', a1, a2, a3, _⟩ := h2 s H
  exact ⟨s', a1, a2, a3⟩

end MpcAlloc
