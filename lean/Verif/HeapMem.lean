import Verif.HeapOps

/-
Preservation of the memory representation by the primitive pool functions.
-/

namespace MpcAlloc

/-- The pool set up by `sctk_alloc_thread_pool_init` for the default class table. -/
def stdPool (pb : Nat) : Pool := ⟨pb, freeSizes, 44, true⟩

@[simp] theorem stdPool_head (pb i : Nat) : (stdPool pb).head i = pb + 32 * i := rfl

/-- The byte is in a free chunk. -/
def AHeap.FreeAt (A : AHeap) (x : Nat) : Prop :=
  ∃ c, A.Has c ∧ c.st = .free ∧ c.addr ≤ x ∧ x < c.addr + c.size

/-- The byte is in the list heads. -/
def PoolAt (pb x : Nat) : Prop := pb ≤ x ∧ x < pb + 1536

/-- Byte of the header or of the links of a free chunk. -/
def AHeap.LinkAt (A : AHeap) (x : Nat) : Prop :=
  ∃ c, A.Has c ∧ c.st = .free ∧ c.addr ≤ x ∧ x < c.addr + 32

theorem AHeap.WF.freeAt_of_link {pb : Nat} {A : AHeap} (W : A.WF pb) {x : Nat} (h : A.LinkAt x) : A.FreeAt x := by
  obtain ⟨c, h1, h2, h3, h4⟩ := h
  have := (W.has_wf h1).ge
  exact ⟨c, h1, h2, h3, by omega⟩

/-! ### Segments -/

theorem SegMem.congr {m m' : Mem} {s : Seg} (H : SegMem m s)
    (h1 : AgreeOn m m' s.base 16) (h2 : ∀ c ∈ s.ext, CkAgree m m' c) : SegMem m' s := by
  refine ⟨?_, ?_, H.chunks.congr h2⟩
  · unfold hSize; rw [readLE_congr (h1.sub (Nat.le_refl _) (by omega))]; exact H.size
  · rw [h1 _ (by omega) (by omega)]; exact H.info

/-- A change of link fields of list nodes does not touch headers. -/
theorem segMem_onlyLinks {pb : Nat} {A : AHeap} {m m' : Mem} {N : List Nat} (W : A.WF pb)
    (h : OnlyLinks m m' N) (hN : ∀ a ∈ N, A.Node pb a) {s : Seg} (hs : s ∈ A.segs)
    (H : SegMem m s) : SegMem m' s := by
  have hw := W.seg s hs
  have hp := W.pool s hs
  have hge := hw.ge
  refine H.congr ?_ ?_
  · intro x hx1 hx2
    apply h
    intro a ha
    rcases hN a ha with ⟨i, hi, rfl⟩ | ⟨i, c, hc, rfl⟩
    · omega
    · obtain ⟨t, ht, hct⟩ := W.flHas i c hc
      have hb := (W.seg t ht).bounds hct
      have := (W.seg t ht).ge
      have := ((W.seg t ht).chunks c hct).ge
      by_cases e : s = t
      · subst e; omega
      · have := W.seg_disj hs ht e; omega
  · intro d hd
    have hdb := hw.ext_bounds hd
    have hds := hw.ext_size hd
    have key : ∀ a ∈ N, ∀ x, d.addr ≤ x → x < d.addr + d.size →
        (x < d.addr + 16 ∨ d.st ≠ .free) → x < a + 16 ∨ a + 32 ≤ x := by
      intro a ha x h1 h2 h3
      rcases hN a ha with ⟨i, hi, rfl⟩ | ⟨i, c, hc, rfl⟩
      · omega
      · obtain ⟨t, ht, hct⟩ := W.flHas i c hc
        have hcs := ((W.seg t ht).chunks c hct).ge
        by_cases e : c = d
        · subst e
          rcases h3 with h3 | h3
          · omega
          · exact absurd (W.flFree _ _ hc) h3
        · have := W.ext_disj ht hs (Seg.mem_ext hct) hd e
          omega
    refine ⟨?_, ?_, ?_⟩
    · intro x hx1 hx2
      exact h x (fun a ha => key a ha x (by omega) (by omega) (Or.inl (by omega)))
    · intro x hx1 hx2
      exact h x (fun a ha => key a ha x (by omega) (by omega) (Or.inl (by omega)))
    · intro p hp' x hx1 hx2
      have : d.off = 24 + p := by simp [Ck.off, hp']
      exact h x (fun a ha => key a ha x (by omega) (by omega) (Or.inr (by rw [hp']; simp)))

theorem tiles_unique {a e e' : Nat} {l : List Ck} (h : Tiles a l e) (h' : Tiles a l e') : e = e' := by
  induction l generalizing a with
  | nil => exact h.symm.trans h'
  | cons c l ih => exact ih h.2 h'.2

theorem Ck.hdrSize_eq {c : Ck} (h : c.st ≠ .stop) : c.hdrSize = c.size := by
  unfold Ck.hdrSize
  split
  · contradiction
  · rfl

/-- Positions around the hole. -/
theorem Ctx.hole {pb : Nat} {K : Ctx} {cs : List Ck} {fl : Nat → List Ck}
    (W : (K.fill cs fl).WF pb) : ∃ a e, Tiles (K.base + 32) K.p a ∧ Tiles a cs e ∧
      Tiles e (K.q ++ [(K.seg cs).stop]) (K.base + K.size) := by
  have ht := (W.seg _ (K.seg_mem cs fl)).ext_tiles
  simp only [Ctx.seg, Seg.ext, List.append_assoc] at ht
  obtain ⟨a, h1, h2⟩ := tiles_append.1 ht
  obtain ⟨e, h3, h4⟩ := tiles_append.1 h2
  exact ⟨a, e, h1, h3, h4⟩

theorem Ctx.hole_mem {K : Ctx} {cs : List Ck} {m : Mem} (H : SegMem m (K.seg cs)) :
    ChunksMem m 0 K.p ∧ ChunksMem m (lastSz 0 K.p) cs ∧
      ChunksMem m (lastSz (lastSz 0 K.p) cs) (K.q ++ [(K.seg cs).stop]) := by
  have h := H.chunks
  simp only [Seg.ext] at h
  simp only [Ctx.seg, List.append_assoc] at h
  obtain ⟨h1, h2⟩ := chunksMem_append.1 h
  obtain ⟨h3, h4⟩ := chunksMem_append.1 h2
  exact ⟨h1, h3, h4⟩

/-- The header after the hole holds the size of the last chunk of the hole. -/
theorem Ctx.next_hdr {K : Ctx} {cs : List Ck} {m : Mem} {z e f : Nat}
    (c3 : ChunksMem m z (K.q ++ [(K.seg cs).stop]))
    (t3 : Tiles e (K.q ++ [(K.seg cs).stop]) f) : hPrev m e = z := by
  obtain ⟨d, r, hr⟩ : ∃ d r, K.q ++ [(K.seg cs).stop] = d :: r := by
    cases K.q <;> simp
  rw [hr] at c3 t3
  have := c3.1.hdr.prev
  rw [t3.1] at this; exact this

/-- Rewriting the chunks of the hole and the previous size stored in the header that follows. -/
theorem Ctx.segs_replace {pb : Nat} {K : Ctx} {cs cs' : List Ck} {fl : Nat → List Ck}
    {fl' : Nat → List Ck} {m m' : Mem} {a e : Nat}
    (W : (K.fill cs fl).WF pb) (H : ∀ s ∈ (K.fill cs fl).segs, SegMem m s)
    (ha : Tiles (K.base + 32) K.p a) (he : Tiles a cs e) (hlt : a < e)
    (hfr : ∀ x, x < a ∨ e ≤ x → x < e + 8 ∨ e + 15 ≤ x → m' x = m x)
    (hcs : ChunksMem m' (lastSz 0 K.p) cs')
    (hnext : hPrev m' e = lastSz (lastSz 0 K.p) cs') :
    ∀ s ∈ (K.fill cs' fl').segs, SegMem m' s := by
  have hw := W.seg _ (K.seg_mem cs fl)
  have hH := H _ (K.seg_mem cs fl)
  have hsb : (K.seg cs).base = K.base := rfl
  have hss : (K.seg cs).size = K.size := rfl
  have hge := hw.ge
  -- the part after the hole
  obtain ⟨a', e', t1, t2, t3⟩ := Ctx.hole W
  obtain rfl : a' = a := tiles_unique t1 ha
  obtain rfl : e' = e := tiles_unique t2 he
  have hae : K.base + 32 ≤ a' := tiles_le ha
  have he2 : e' + 16 ≤ K.base + K.size := by
    have := tiles_mem t3 (c := (K.seg cs).stop) (by simp)
    simp only [Seg.stop] at this
    rw [hsb, hss] at this
    have h96 : 96 ≤ K.size := hge
    omega
  intro s hs
  simp only [Ctx.fill, List.mem_append, List.mem_cons] at hs
  have other : s ∈ K.S1 ∨ s ∈ K.S2 → SegMem m' s := by
    intro hs
    have hsm : s ∈ (K.fill cs fl).segs := by simp [Ctx.fill]; grind
    have hsw := W.seg s hsm
    have hd : s.base + s.size ≤ K.base ∨ K.base + K.size ≤ s.base := by
      have hp := W.disj
      simp only [Ctx.fill, List.pairwise_append, List.pairwise_cons, List.mem_cons] at hp
      rcases hs with hs | hs
      · exact hp.2.2 s hs (K.seg cs) (Or.inl rfl)
      · exact (hp.2.1.1 s hs).symm
    have hsge := hsw.ge
    refine (H s hsm).congr ?_ ?_
    · intro x h1 h2; exact hfr x (by omega) (by omega)
    · intro d hd'
      have hb := hsw.ext_bounds hd'
      have hz := hsw.ext_size hd'
      exact CkAgree.of_extent hz.2 hz.1 (fun x h1 h2 => hfr x (by omega) (by omega))
  rcases hs with hs | rfl | hs
  · exact other (Or.inl hs)
  · obtain ⟨c1, c2, c3⟩ := Ctx.hole_mem hH
    refine ⟨?_, ?_, ?_⟩
    · show hSize m' K.base = K.size
      rw [← show hSize m K.base = K.size from hH.size]
      unfold hSize
      exact readLE_congr (fun x h1 h2 => hfr x (by omega) (by omega))
    · show (m' (K.base + 15)).toNat = 133
      rw [hfr _ (by omega) (by omega)]; exact hH.info
    · show ChunksMem m' 0 (K.p ++ cs' ++ K.q ++ [(K.seg cs).stop])
      rw [List.append_assoc, List.append_assoc]
      refine chunksMem_append.2 ⟨?_, chunksMem_append.2 ⟨hcs, ?_⟩⟩
      · refine c1.congr (fun d hd => ?_)
        have hd' : d ∈ (K.seg cs).ext := by simp [Ctx.seg, Seg.ext, hd]
        have hb := tiles_mem ha hd
        have hz := hw.ext_size hd'
        exact CkAgree.of_extent hz.2 hz.1 (fun x h1 h2 => hfr x (by omega) (by omega))
      · obtain ⟨d, r, hr⟩ : ∃ d r, K.q ++ [(K.seg cs).stop] = d :: r := by
          cases K.q <;> simp
        have hall : ∀ d ∈ K.q ++ [(K.seg cs).stop], d ∈ (K.seg cs).ext := by
          intro d hd
          have : (K.seg cs).ext = K.p ++ cs ++ (K.q ++ [(K.seg cs).stop]) := by
            simp [Ctx.seg, Seg.ext, Seg.stop]
          rw [this]; exact List.mem_append_right _ hd
        rw [hr] at c3 t3 hall ⊢
        obtain ⟨hda, t4⟩ := t3
        have hz := hw.ext_size (hall d (by simp))
        refine ⟨⟨⟨?_, ?_, ?_⟩, ?_⟩, ?_⟩
        · rw [← c3.1.hdr.size]; unfold hSize
          exact readLE_congr (fun x h1 h2 => hfr x (by omega) (by omega))
        · rw [hda]; exact hnext
        · rw [hfr _ (by omega) (by omega)]; exact c3.1.hdr.info
        · intro p hp
          refine (c3.1.pad p hp).congr (fun x h1 h2 => hfr x (by omega) (by omega))
        · refine c3.2.congr (fun c hc => ?_)
          have hb := tiles_mem t4 hc
          have hz' := hw.ext_size (hall c (by simp [hc]))
          exact CkAgree.of_extent hz'.2 hz'.1 (fun x h1 h2 => hfr x (by omega) (by omega))
  · exact other (Or.inr hs)

/-! ### Lists -/

theorem lists_frame {P : Pool} {m m' : Mem} {fl : Nat → List Ck} {i : Nat}
    (H : Links m (P.head i) ((fl i).map Ck.addr) (P.head i))
    (hh : AgreeOn m m' (P.head i + 16) 16)
    (hc : ∀ c ∈ fl i, AgreeOn m m' (c.addr + 16) 16) :
    Links m' (P.head i) ((fl i).map Ck.addr) (P.head i) := by
  have key : ∀ n ∈ P.head i :: (fl i).map Ck.addr, AgreeOn m m' (n + 16) 16 := by
    intro n hn
    rcases List.mem_cons.1 hn with rfl | hn
    · exact hh
    · obtain ⟨c, hc', rfl⟩ := List.mem_map.1 hn
      exact hc c hc'
  refine links_frame H ?_ ?_
  · intro n hn
    unfold getNext
    exact readLE_congr ((key n hn).sub (Nat.le_refl _) (by omega))
  · intro n hn
    unfold getPrev
    exact readLE_congr ((key n (by grind)).sub (by omega) (by omega))

/-- Nodes of one list. -/
theorem AHeap.WF.nodesOK {pb : Nat} {A : AHeap} (W : A.WF pb) {N : List Nat}
    (h : ∀ a ∈ N, A.Node pb a) : NodesOK N :=
  ⟨fun a ha b hb hne => W.node_sep (h a ha) (h b hb) hne, fun a ha => (W.node_pos (h a ha)).1,
    fun a ha => (W.node_pos (h a ha)).2⟩

theorem AHeap.WF.fl_nodup {pb : Nat} {A : AHeap} (W : A.WF pb) {i : Nat} (hi : i < 48) :
    ((pb + 32 * i) :: (A.fl i).map Ck.addr).Nodup := by
  rw [List.nodup_cons]
  constructor
  · intro h
    obtain ⟨c, hc, he⟩ := List.mem_map.1 h
    have := W.has_pool (W.flHas i c hc)
    have := (W.has_wf (W.flHas i c hc)).ge
    omega
  · have := W.flNodup i
    refine List.pairwise_map.2 (List.Pairwise.imp_of_mem ?_ this)
    intro x y hx hy hne e
    exact hne (W.addr_inj (W.flHas i x hx) (W.flHas i y hy) e)

theorem AHeap.node_head {pb : Nat} {A : AHeap} {i : Nat} (hi : i < 48) : A.Node pb (pb + 32 * i) :=
  Or.inl ⟨i, hi, rfl⟩
theorem AHeap.node_fl {pb : Nat} {A : AHeap} {i : Nat} {c : Ck} (hc : c ∈ A.fl i) : A.Node pb c.addr :=
  Or.inr ⟨i, c, hc, rfl⟩

/-- Links of the lists other than the one changed. -/
theorem lists_other {pb : Nat} {A : AHeap} {m m' : Mem} {N : List Nat} (W : A.WF pb)
    (h : OnlyLinks m m' N) (hN : ∀ a ∈ N, A.Node pb a) {b : Nat} (hb : A.Node pb b) (hbN : b ∉ N) :
    AgreeOn m m' (b + 16) 16 := by
  intro x h1 h2
  apply h
  intro a ha
  have := W.node_sep (hN a ha) hb (fun e => hbN (e ▸ ha))
  unfold Sep at this; omega

/-! ### Change of state -/

/-- Setting the state bit of one chunk. -/
theorem segs_setState {pb : Nat} {K : Ctx} {c c' : Ck} {fl fl' : Nat → List Ck} {m : Mem}
    (W : (K.fill [c] fl).WF pb) (H : ∀ s ∈ (K.fill [c] fl).segs, SegMem m s)
    (h1 : c'.addr = c.addr) (h2 : c'.size = c.size) (h3 : c'.st ≠ .stop)
    (h4 : ∀ p, c'.st ≠ .used (some p)) :
    ∀ s ∈ (K.fill [c'] fl').segs, SegMem (setState m (c.addr + 15) c'.st.num) s := by
  obtain ⟨a, e, t1, t2, t3⟩ := Ctx.hole W
  obtain ⟨rfl, rfl⟩ := t2
  have hcw := W.has_wf (K.has_of_mem fl (cs := [c]) (c := c) (by simp))
  have hge := hcw.ge
  obtain ⟨c1, c2, c3⟩ := Ctx.hole_mem (H _ (K.seg_mem [c] fl))
  refine Ctx.segs_replace W H t1 ⟨rfl, rfl⟩ (by omega) ?_ ?_ ?_
  · intro x h1 h2
    exact setState_other (by omega)
  · refine ⟨⟨?_, fun p hp => absurd hp (h4 p)⟩, trivial⟩
    have hh := c2.1.hdr.setState (CkSt.num_lt _) (CkSt.num_lt c'.st)
    have e1 : c'.hdrSize = c.hdrSize := by
      rw [Ck.hdrSize_eq h3, Ck.hdrSize_eq hcw.nstop, h2]
    rw [h1, e1]; exact hh
  · show _ = c'.size
    have hag : AgreeOn m (setState m (c.addr + 15) c'.st.num) (c.addr + c.size + 8) 7 :=
      fun x h1 h2 => setState_other (by omega)
    rw [h2]
    exact (readLE_congr hag).trans (Ctx.next_hdr c3 t3)

/-! ### Remove -/

theorem freeListRemove_link {pb : Nat} {K : Ctx} {c : Ck} {fl : Nat → List Ck} {i : Nat}
    {l1 l2 : List Ck} {s : Heap} (W : (K.fill [c] fl).WF pb) (hl : fl i = l1 ++ c :: l2)
    (H : MemOK (stdPool pb) s (K.fill [c] fl)) :
    ∃ s', freeListRemove (stdPool pb) s c.addr = .ok s' ∧
      MemOK (stdPool pb) s' (K.fill [c.use] (updFl fl i (l1 ++ l2))) ∧
      ∀ x, ¬ PoolAt pb x → ¬ (K.fill [c] fl).LinkAt x → s'.mem x = s.mem x := by
  have hci : c ∈ (K.fill [c] fl).fl i := by simp [Ctx.fill, hl]
  have hi : i < 48 := (W.flClass i c hci).lt
  have hcH := W.flHas i c hci
  have hcw := W.has_wf hcH
  have hcf := W.flFree i c hci
  have hnd := W.fl_nodup hi
  have hL := H.lists i hi
  simp only [Ctx.fill] at hnd
  have hL' : Links s.mem ((stdPool pb).head i) (l1.map Ck.addr ++ c.addr :: l2.map Ck.addr) ((stdPool pb).head i) := by
    have : (K.fill [c] fl).fl i = l1 ++ c :: l2 := hl
    rw [this] at hL; simpa using hL
  have hNode : ∀ a ∈ c.addr :: (stdPool pb).head i :: (l1.map Ck.addr ++ l2.map Ck.addr),
      (K.fill [c] fl).Node pb a := by
    intro a ha
    simp only [List.mem_cons, List.mem_append, List.mem_map] at ha
    rcases ha with rfl | rfl | ⟨d, hd, rfl⟩ | ⟨d, hd, rfl⟩
    · exact AHeap.node_fl hci
    · exact AHeap.node_head hi
    · exact AHeap.node_fl (i := i) (by simp [Ctx.fill, hl, hd])
    · exact AHeap.node_fl (i := i) (by simp [Ctx.fill, hl, hd])
  rw [hl] at hnd
  obtain ⟨m1, r1, r2, r3⟩ := freeListRemove_spec (P := stdPool pb) (s := s) (f := c.addr) hi hL'
    (W.nodesOK hNode) (by simp only [stdPool_head]; simp only [List.map_append, List.map_cons] at hnd; grind)
  refine ⟨_, r1, ⟨?_, ?_, ?_⟩, ?_⟩
  · exact segs_setState W (fun t ht => segMem_onlyLinks W r2 hNode ht (H.segs t ht))
      (c' := c.use) rfl rfl (by simp [Ck.use]) (by simp [Ck.use])
  · intro k hk
    by_cases e : k = i
    · subst e
      simp only [Ctx.fill, updFl_same, List.map_append]
      exact r3
    · have hfl : (K.fill [c.use] (updFl fl i (l1 ++ l2))).fl k = fl k := updFl_ne _ _ e
      rw [hfl]
      have hLk := H.lists k hk
      have hcase : ∀ b, (K.fill [c] fl).Node pb b →
          b ∉ c.addr :: (stdPool pb).head i :: (l1.map Ck.addr ++ l2.map Ck.addr) →
          AgreeOn s.mem (setState m1 (c.addr + 15) SALLOC) (b + 16) 16 := by
        intro b hb hbN
        refine (lists_other W r2 hNode hb hbN).trans ?_
        intro x h1 h2
        refine setState_other ?_
        have := W.node_sep (AHeap.node_fl hci) hb (by grind)
        unfold Sep at this; omega
      have hnk : ∀ d ∈ fl k, d ∉ fl i := by
        intro d h1 h2
        exact e (W.fl_unique (A := K.fill [c] fl) h1 h2)
      refine lists_frame (fl := fl) hLk (hcase _ (AHeap.node_head hk) ?_) (fun d hd => hcase _ (AHeap.node_fl (A := K.fill [c] fl) hd) ?_)
      · intro hm
        simp only [stdPool_head, List.mem_cons, List.mem_append, List.mem_map] at hm
        have hb : ∀ d ∈ fl i, d.addr ≠ pb + 32 * k := by
          intro d hd
          have := W.has_pool (W.flHas i d hd)
          have := (W.has_wf (W.flHas i d hd)).ge
          omega
        rcases hm with hm | hm | ⟨d, hd, hm⟩ | ⟨d, hd, hm⟩
        · exact hb c hci hm.symm
        · omega
        · exact hb d (by simp [hl, hd]) hm
        · exact hb d (by simp [hl, hd]) hm
      · intro hm
        simp only [stdPool_head, List.mem_cons, List.mem_append, List.mem_map] at hm
        have hb : ∀ d' ∈ fl i, d'.addr ≠ d.addr := by
          intro d' hd' he
          have := W.addr_inj (W.flHas i d' hd') (W.flHas k d hd) he
          subst this
          exact hnk _ hd hd'
        rcases hm with hm | hm | ⟨d', hd', hm⟩ | ⟨d', hd', hm⟩
        · exact hb c hci hm.symm
        · have := W.has_pool (W.flHas k d hd)
          have := (W.has_wf (W.flHas k d hd)).ge
          omega
        · exact hb d' (by simp [hl, hd']) hm
        · exact hb d' (by simp [hl, hd']) hm
  · intro k hk
    have hst := H.status k hk
    have hfk : (K.fill [c] fl).fl k = fl k := rfl
    rw [hfk] at hst
    show _ ↔ updFl fl i (l1 ++ l2) k ≠ []
    by_cases e : k = i
    · subst e
      rw [updFl_same]
      by_cases he : l1 ++ l2 = []
      · have : l1.map Ck.addr ++ l2.map Ck.addr = [] := by rw [← List.map_append, he]; rfl
        simp [this, he, setStatus]
      · have : l1.map Ck.addr ++ l2.map Ck.addr ≠ [] := by rw [← List.map_append]; simpa using he
        simp only [this, if_false]
        have : fl k ≠ [] := by rw [hl]; simp
        simp only [ne_eq, he, not_false_eq_true, iff_true]
        exact hst.2 this
    · rw [updFl_ne _ _ e]
      split
      · simpa [setStatus, e] using hst
      · exact hst
  · intro x hx1 hx2
    have hnf : ∀ d k, d ∈ fl k → ¬ (d.addr ≤ x ∧ x < d.addr + 32) := by
      intro d k hd h
      exact hx2 ⟨d, W.flHas k d hd, W.flFree k d hd, h.1, h.2⟩
    have hc' := hnf c i (by simp [hl])
    have := hcw.ge
    show setState m1 (c.addr + 15) SALLOC x = s.mem x
    rw [setState_other (by omega)]
    apply r2
    intro a ha
    rcases hNode a ha with ⟨k, hk, rfl⟩ | ⟨k, d, hd, rfl⟩
    · unfold PoolAt at hx1; omega
    · have h1 := hnf d k hd
      have := (W.has_wf (W.flHas k d hd)).ge
      omega

/-! ### Insert -/

theorem freeListRemove_ok {pb : Nat} {K : Ctx} {c : Ck} {fl : Nat → List Ck} {i : Nat}
    {l1 l2 : List Ck} {s : Heap} (W : (K.fill [c] fl).WF pb) (hl : fl i = l1 ++ c :: l2)
    (H : MemOK (stdPool pb) s (K.fill [c] fl)) :
    ∃ s', freeListRemove (stdPool pb) s c.addr = .ok s' ∧
      MemOK (stdPool pb) s' (K.fill [c.use] (updFl fl i (l1 ++ l2))) ∧
      ∀ x, ¬ PoolAt pb x → ¬ (K.fill [c] fl).FreeAt x → s'.mem x = s.mem x := by
  obtain ⟨s', h1, h2, h3⟩ := freeListRemove_link W hl H
  exact ⟨s', h1, h2, fun x hx hf => h3 x hx (fun h => hf (W.freeAt_of_link h))⟩

/-- Position of an inserted element. -/
def insAt (atEnd : Bool) (l : List Ck) (c : Ck) : List Ck := if atEnd then l ++ [c] else c :: l

theorem mem_insAt {b : Bool} {l : List Ck} {c d : Ck} : d ∈ insAt b l c ↔ d = c ∨ d ∈ l := by
  unfold insAt; split <;> simp [or_comm]

theorem wf_insAt {pb : Nat} {K : Ctx} {c : Ck} {fl : Nat → List Ck} {j : Nat}
    (W : (K.fill [c] fl).WF pb) (hcu : c.st ≠ .free) (hj : IsStoreClass c.size j) (b : Bool) :
    (K.fill [c.mkFree] (updFl fl j (insAt b (fl j) c.mkFree))).WF pb := by
  cases b
  · exact wf_insert (l1 := []) (l2 := fl j) W hcu hj rfl
  · exact wf_insert (l1 := fl j) (l2 := []) W hcu hj (by simp)

theorem linkChunk_at {m : Mem} {h f : Nat} {l : List Ck} {c : Ck} {b : Bool}
    (H : Links m h (l.map Ck.addr) h) (hf : f = c.addr)
    (hN : NodesOK (f :: h :: l.map Ck.addr)) (hnd : (f :: h :: l.map Ck.addr).Nodup) :
    ∃ m', linkChunk m h f b = .ok m' ∧ Links m' h ((insAt b l c).map Ck.addr) h ∧
      OnlyLinks m m' (f :: h :: l.map Ck.addr) := by
  subst hf
  cases b
  · exact linkChunk_start H hN hnd
  · obtain ⟨m', h1, h2, h3⟩ := linkChunk_end H hN hnd
    exact ⟨m', h1, by simpa [insAt] using h2, h3⟩

theorem freeListInsert_link {pb : Nat} {K : Ctx} {c : Ck} {fl : Nat → List Ck} {j : Nat}
    {s : Heap} {b : Bool} (W : (K.fill [c] fl).WF pb) (hcu : c.st ≠ .free)
    (hj : IsStoreClass c.size j) (H : MemOK (stdPool pb) s (K.fill [c] fl)) :
    ∃ s', freeListInsert (stdPool pb) s c.addr b = .ok s' ∧
      MemOK (stdPool pb) s' (K.fill [c.mkFree] (updFl fl j (insAt b (fl j) c.mkFree))) ∧
      ∀ x, ¬ PoolAt pb x → ¬ (K.fill [c] fl).LinkAt x → (x < c.addr ∨ c.addr + 32 ≤ x) →
        s'.mem x = s.mem x := by
  have W' := wf_insAt W hcu hj b
  have hcH := K.has_of_mem fl (cs := [c]) (c := c) (by simp)
  have hcw := W.has_wf hcH
  have hge := hcw.ge
  have hr := W.has_range hcH
  obtain ⟨c1, c2, c3⟩ := Ctx.hole_mem (H.segs _ (K.seg_mem [c] fl))
  have hsz : hSize s.mem c.addr = c.size := by
    rw [c2.1.hdr.size]; exact Ck.hdrSize_eq hcw.nstop
  have hj48 := hj.lt
  have hidx : insertIdx freeSizes 44 true c.size = .ok (j : Int) := by
    obtain ⟨j', h1, h2⟩ := insertIdx_spec hge (by omega : c.size < W63)
    rw [h2.unique hj] at h1; exact h1
  -- memory after the change of state
  obtain ⟨m0, hm0⟩ : ∃ m0, m0 = setState s.mem (c.addr + 15) SFREE := ⟨_, rfl⟩
  have hsegs := segs_setState (fl' := updFl fl j (insAt b (fl j) c.mkFree)) W H.segs
    (c' := c.mkFree) rfl rfl (by simp [Ck.mkFree]) (by simp [Ck.mkFree])
  have hnum : c.mkFree.st.num = SFREE := rfl
  rw [hnum, ← hm0] at hsegs
  have hag0 : ∀ a, (K.fill [c] fl).Node pb a → AgreeOn s.mem m0 (a + 16) 16 := by
    intro a ha x h1 h2
    rw [hm0]
    refine setState_other ?_
    rcases ha with ⟨i, hi, rfl⟩ | ⟨i, d, hd, rfl⟩
    · have := W.has_pool hcH; omega
    · have hne : d ≠ c := by rintro rfl; exact hcu (W.flFree _ _ hd)
      have := W.has_disj (W.flHas i d hd) hcH hne
      have := (W.has_wf (W.flHas i d hd)).ge
      omega
  have hL0 : ∀ i, i < 48 → Links m0 ((stdPool pb).head i) ((fl i).map Ck.addr) ((stdPool pb).head i) := by
    intro i hi
    exact lists_frame (fl := fl) (H.lists i hi) (hag0 _ (AHeap.node_head hi))
      (fun d hd => hag0 _ (AHeap.node_fl (A := K.fill [c] fl) (i := i) hd))
  have hNode : ∀ a ∈ c.addr :: (stdPool pb).head j :: (fl j).map Ck.addr,
      (K.fill [c.mkFree] (updFl fl j (insAt b (fl j) c.mkFree))).Node pb a := by
    intro a ha
    simp only [List.mem_cons, List.mem_map] at ha
    have hfl : (K.fill [c.mkFree] (updFl fl j (insAt b (fl j) c.mkFree))).fl j
        = insAt b (fl j) c.mkFree := updFl_same _ _ _
    rcases ha with rfl | rfl | ⟨d, hd, rfl⟩
    · exact AHeap.node_fl (c := c.mkFree) (i := j) (by rw [hfl]; exact mem_insAt.2 (Or.inl rfl))
    · exact AHeap.node_head hj48
    · exact AHeap.node_fl (i := j) (by rw [hfl]; exact mem_insAt.2 (Or.inr hd))
  have hnd : (c.addr :: (stdPool pb).head j :: (fl j).map Ck.addr).Nodup := by
    rw [List.nodup_cons]
    refine ⟨?_, W.fl_nodup hj48⟩
    intro hm
    simp only [List.mem_cons, List.mem_map] at hm
    rcases hm with hm | ⟨d, hd, hm⟩
    · have := W.has_pool hcH
      simp only [stdPool_head] at hm; omega
    · have := W.addr_inj (W.flHas j d hd) hcH hm
      subst this
      exact hcu (W.flFree j d hd)
  obtain ⟨m', r1, r2, r3⟩ := linkChunk_at (b := b) (c := c.mkFree) (hL0 j hj48) rfl (W'.nodesOK hNode) hnd
  refine ⟨⟨m', setStatus s.status j true⟩, ?_, ⟨?_, ?_, ?_⟩, ?_⟩
  · unfold freeListInsert
    have hidx' : insertIdx (stdPool pb).sizes (stdPool pb).nb (stdPool pb).analytic (hSize s.mem c.addr)
        = .ok (j : Int) := by rw [hsz]; exact hidx
    have hjn : ¬ ((j : Int) < 0 ∨ (48 : Int) ≤ j) := by omega
    rw [hidx']
    simp only [Outcome.ok_bind, if_neg hjn, Int.toNat_natCast, Outcome.pure_eq, ← hm0]
    rw [show linkChunk m0 ((stdPool pb).head j) c.addr b = .ok m' from r1]
    rfl
  · intro t ht
    exact segMem_onlyLinks W' r3 hNode ht (hsegs t ht)
  · intro k hk
    by_cases e : k = j
    · subst e
      simp only [Ctx.fill, updFl_same]
      exact r2
    · have hfl : (K.fill [c.mkFree] (updFl fl j (insAt b (fl j) c.mkFree))).fl k = fl k := updFl_ne _ _ e
      rw [hfl]
      have hb1 : ∀ d ∈ fl j, ∀ d' ∈ fl k, d.addr ≠ d'.addr := by
        intro d hd d' hd' he
        have := W.addr_inj (W.flHas j d hd) (W.flHas k d' hd') he
        subst this
        exact e (W.fl_unique (A := K.fill [c] fl) hd' hd)
      have hb2 : ∀ i, ∀ d ∈ fl i, ∀ n, n < 48 → d.addr ≠ pb + 32 * n := by
        intro i d hd n hn
        have := W.has_pool (W.flHas i d hd)
        have := (W.has_wf (W.flHas i d hd)).ge
        omega
      have hb3 : ∀ d ∈ fl k, d.addr ≠ c.addr := by
        intro d hd he
        have := W.addr_inj (W.flHas k d hd) hcH he
        subst this
        exact hcu (W.flFree k d hd)
      have hb4 : ∀ n, n < 48 → c.addr ≠ pb + 32 * n := by
        intro n hn
        have := W.has_pool hcH; omega
      refine lists_frame (fl := fl) (hL0 k hk)
        (lists_other W' r3 hNode (AHeap.node_head hk) ?_)
        (fun d hd => lists_other W' r3 hNode (AHeap.node_fl (i := k) (by rw [hfl]; exact hd)) ?_)
      · intro hm
        simp only [stdPool_head, List.mem_cons, List.mem_map] at hm
        rcases hm with hm | hm | ⟨d, hd, hm⟩
        · exact hb4 k hk hm.symm
        · omega
        · exact hb2 j d hd k hk hm
      · intro hm
        simp only [stdPool_head, List.mem_cons, List.mem_map] at hm
        rcases hm with hm | hm | ⟨d', hd', hm⟩
        · exact hb3 d hd hm
        · exact hb2 k d hd j hj48 hm
        · exact hb1 d' hd' d hd hm
  · intro k hk
    have hst := H.status k hk
    have hfk : (K.fill [c] fl).fl k = fl k := rfl
    rw [hfk] at hst
    show setStatus s.status j true k = true ↔ updFl fl j (insAt b (fl j) c.mkFree) k ≠ []
    by_cases e : k = j
    · subst e
      rw [updFl_same]
      have : insAt b (fl k) c.mkFree ≠ [] := by unfold insAt; split <;> simp
      simp [setStatus, this]
    · rw [updFl_ne _ _ e]
      simpa [setStatus, e] using hst
  · intro x hx1 hx2 hx3
    show m' x = s.mem x
    rw [r3 x, hm0, setState_other (by omega)]
    intro a ha
    simp only [stdPool_head, List.mem_cons, List.mem_map] at ha
    rcases ha with rfl | rfl | ⟨d, hd, rfl⟩
    · have : c.mkFree.addr = c.addr := rfl
      omega
    · unfold PoolAt at hx1; omega
    · have h1 : ¬ (d.addr ≤ x ∧ x < d.addr + 32) := fun h =>
        hx2 ⟨d, W.flHas j d hd, W.flFree j d hd, h.1, h.2⟩
      have := (W.has_wf (W.flHas j d hd)).ge
      omega

theorem freeListInsert_ok {pb : Nat} {K : Ctx} {c : Ck} {fl : Nat → List Ck} {j : Nat}
    {s : Heap} {b : Bool} (W : (K.fill [c] fl).WF pb) (hcu : c.st ≠ .free)
    (hj : IsStoreClass c.size j) (H : MemOK (stdPool pb) s (K.fill [c] fl)) :
    ∃ s', freeListInsert (stdPool pb) s c.addr b = .ok s' ∧
      MemOK (stdPool pb) s' (K.fill [c.mkFree] (updFl fl j (insAt b (fl j) c.mkFree))) ∧
      ∀ x, ¬ PoolAt pb x → ¬ (K.fill [c] fl).FreeAt x → (x < c.addr ∨ c.addr + c.size ≤ x) →
        s'.mem x = s.mem x := by
  obtain ⟨s', h1, h2, h3⟩ := freeListInsert_link (b := b) W hcu hj H
  have := (W.has_wf (K.has_of_mem fl (cs := [c]) (c := c) (by simp))).ge
  exact ⟨s', h1, h2, fun x hx hf hc => h3 x hx (fun h => hf (W.freeAt_of_link h)) (by omega)⟩

/-! ### Changes inside of used chunks -/

/-- The memory part of an operation that rewrites used chunks of the hole: lists are unchanged. -/
theorem memOK_replace {pb : Nat} {K : Ctx} {cs cs' : List Ck} {fl : Nat → List Ck} {s : Heap} {m' : Mem}
    {a e : Nat} (W : (K.fill cs fl).WF pb) (H : MemOK (stdPool pb) s (K.fill cs fl))
    (hu : ∀ c ∈ cs, c.st ≠ .free)
    (ha : Tiles (K.base + 32) K.p a) (he : Tiles a cs e) (hlt : a < e)
    (hfr : ∀ x, x < a ∨ e ≤ x → x < e + 8 ∨ e + 15 ≤ x → m' x = s.mem x)
    (hcs : ChunksMem m' (lastSz 0 K.p) cs')
    (hnext : hPrev m' e = lastSz (lastSz 0 K.p) cs') :
    MemOK (stdPool pb) { s with mem := m' } (K.fill cs' fl) := by
  refine ⟨Ctx.segs_replace W H.segs ha he hlt hfr hcs hnext, ?_, H.status⟩
  obtain ⟨a', e', t1, t2, t3⟩ := Ctx.hole W
  obtain rfl : a' = a := tiles_unique t1 ha
  obtain rfl : e' = e := tiles_unique t2 he
  have hw := W.seg _ (K.seg_mem cs fl)
  have hge : 96 ≤ K.size := hw.ge
  have hae : K.base + 32 ≤ a' := tiles_le ha
  have he2 : e' + 16 ≤ K.base + K.size := by
    have := tiles_mem t3 (c := (K.seg cs).stop) (by simp)
    simp only [Seg.stop, Ctx.seg] at this
    omega
  have hpool : K.base + K.size ≤ pb ∨ pb + 1536 ≤ K.base := W.pool _ (K.seg_mem cs fl)
  intro i hi
  refine lists_frame (fl := fl) (H.lists i hi) ?_ ?_
  · intro x h1 h2
    simp only [stdPool_head] at h1 h2
    exact hfr x (by omega) (by omega)
  · intro d hd x h1 h2
    have hdH := W.flHas i d hd
    have hdf := W.flFree i d hd
    have hdg := (W.has_wf hdH).ge
    have hdr : K.Rest d := Ctx.rest_of_has W hdH (fun h => hu d h hdf)
    rcases hdr with hp | hq | ⟨t, ht, htd⟩
    · have := tiles_mem ha hp
      exact hfr x (by omega) (by omega)
    · have hz := tiles_mem t3 (c := d) (by simp [hq])
      exact hfr x (by omega) (by omega)
    · have htm : t ∈ (K.fill cs fl).segs := by simp [Ctx.fill]; grind
      have hb := (W.seg t htm).bounds htd
      have htg := (W.seg t htm).ge
      have hdj : t.base + t.size ≤ K.base ∨ K.base + K.size ≤ t.base := by
        have hp := W.disj
        simp only [Ctx.fill, List.pairwise_append, List.pairwise_cons, List.mem_cons] at hp
        rcases ht with ht | ht
        · exact hp.2.2 t ht (K.seg cs) (Or.inl rfl)
        · exact (hp.2.1.1 t ht).symm
      exact hfr x (by omega) (by omega)

/-- Rewriting used chunks of the hole keeps the heap well-formed. -/
theorem wf_used {pb : Nat} {K : Ctx} {cs cs' : List Ck} {fl : Nat → List Ck}
    (W : (K.fill cs fl).WF pb) (hu : ∀ c ∈ cs, c.st ≠ .free) (hu' : ∀ c ∈ cs', c.st ≠ .free)
    (hT : ∀ a e, Tiles a cs e → Tiles a cs' e) (hW : ∀ c ∈ cs', c.WF) : (K.fill cs' fl).WF pb := by
  refine Ctx.wf_replace W hT hW ?_ ?_ W.flNodup
  · intro i x hx
    have hf := W.flFree i x hx
    exact ⟨hf, Or.inr (Ctx.rest_of_has W (W.flHas i x hx) (fun h => hu x h hf)), W.flClass i x hx⟩
  · rintro x (hx | hx) hf
    · exact absurd hf (hu' x hx)
    · exact W.flAll x ((K.has _ _ _).2 (Or.inr hx)) hf

end MpcAlloc
