import Verif.PropsChain2

/-!
# Double free after a merge

The first free of a block merges its chunk with the free chunks around it, but leaves the header of the chunk as it is
inside the merged chunk.
-/

namespace MpcAlloc

/-- A block is freed twice in a row; the first free merged its chunk `c` with the free chunks `f` on its left and `r` on
its right. The header of `c` still says that it is in use, so the second free does not abort; it cuts the merged
chunk at the end of `c`, and `r` is left as a chunk in use that nobody owns. -/
theorem release_twice {pb : Nat} {K : Ctx} {p' q' : List Ck} {f c r : Ck} {fl : Nat → List Ck}
    (W : (({ K with p := p' ++ [f], q := [r] ++ q' } : Ctx).fill [c] fl).WF pb) (hc : c.st = .used none)
    (hf : f.st = .free) (hr : r.st = .free)
    (hp' : ∀ l d, p' = l ++ [d] → d.st ≠ .free) (hq' : ∀ l d, q' = d :: l → d.st ≠ .free) {s : Heap}
    (H : MemOK (stdPool pb) s (({ K with p := p' ++ [f], q := [r] ++ q' } : Ctx).fill [c] fl)) :
    ∃ s1 s2 fl1, releaseChunk (stdPool pb) false s (c.addr + 15) = .ok s1 ∧
      MemOK (stdPool pb) s1 (({ K with p := p', q := q' } : Ctx).fill [⟨f.addr, r.addr + r.size - f.addr, .free⟩] fl1) ∧
      CkMem s1.mem f.size c ∧
      releaseChunk (stdPool pb) false s1 (c.addr + 15) = .ok s2 ∧
      (∃ z, HdrAt s2.mem f.addr (r.addr - f.addr) z SFREE) ∧ HdrAt s2.mem r.addr r.size (r.addr - f.addr) SALLOC ∧
      (∀ d, d ∈ p' ∨ d ∈ q' → ∃ z, HdrAt s2.mem d.addr d.size z d.st.num) := by
  have hcf : c.st ≠ .free := by rw [hc]; simp
  obtain ⟨a0, e0, t1, t2, t3⟩ := Ctx.hole W
  obtain ⟨a, ha, t1'⟩ := tiles_append.1 t1
  simp only [List.append_assoc] at t3
  obtain ⟨e, t3', t3''⟩ := tiles_append.1 t3
  have he : Tiles a ([f] ++ [c] ++ [r]) e := tiles_append.2 ⟨e0, tiles_append.2 ⟨a0, t1', t2⟩, t3'⟩
  have hfH : (({ K with p := p' ++ [f], q := [r] ++ q' } : Ctx).fill [c] fl).Has f :=
    (Ctx.has _ _ _ _).2 (Or.inr (Or.inl (by simp)))
  have hrH : (({ K with p := p' ++ [f], q := [r] ++ q' } : Ctx).fill [c] fl).Has r :=
    (Ctx.has _ _ _ _).2 (Or.inr (Or.inr (Or.inl (by simp))))
  have hcH := Ctx.has_of_mem ({ K with p := p' ++ [f], q := [r] ++ q' } : Ctx) fl (cs := [c]) (c := c) (by simp)
  have hfw := W.has_wf hfH
  have hrw := W.has_wf hrH
  have hcw := W.has_wf hcH
  have hfr := W.has_range hfH
  have hrr := W.has_range hrH
  have hcr := W.has_range hcH
  have hf32 := hfw.ge
  have hr32 := hrw.ge
  have hc32 := hcw.ge
  obtain ⟨g1, g2, g3, g4⟩ : f.addr = a ∧ f.addr + f.size = c.addr ∧ c.addr + c.size = r.addr ∧ r.addr + r.size = e := by
    simp only [List.cons_append, List.nil_append, Tiles] at he
    omega
  obtain ⟨Wm, hm⟩ := merge_stale (K := { K with p := p' ++ [f], q := [r] ++ q' }) W hcf (by simpa using hf) (by simpa using hr)
    hp' hq' ha he
  obtain ⟨s', e1, M1, _, sx, Mx, fx⟩ := hm s H
  simp only at Wm M1 Mx
  generalize hflD : flDel fl ([f] ++ [r]) = flD at Wm M1 Mx
  -- insertion of the merged chunk
  have hmH := Ctx.has_of_mem ({ K with p := p', q := q' } : Ctx) flD (cs := [⟨a, e - a, .used none⟩]) (c := ⟨a, e - a, .used none⟩) (by simp)
  have hmr := Wm.has_range hmH
  have hmp := Wm.has_pool hmH
  have hmsz : (32 : Nat) ≤ e - a := by omega
  simp only at hmr hmp
  obtain ⟨j, hj⟩ := storeClass_exists (size := e - a) hmsz (by omega)
  obtain ⟨s1, e2, M2, f2⟩ := freeListInsert_link (b := true) Wm (by simp) hj M1
  have W2 := wf_insAt Wm (by simp) hj true
  generalize hfl1 : updFl flD j (insAt true (flD j) (⟨a, e - a, .used none⟩ : Ck).mkFree) = fl1 at M2 W2
  have hin1 : ∀ x, a + 32 ≤ x → x < e → s1.mem x = sx.mem x := by
    intro x h1 h2
    rw [f2 x ?_ ?_ (Or.inr h1), fx x (by omega) h2]
    · unfold PoolAt; omega
    · rintro ⟨d, hd, hdf, h3, h4⟩
      have hne : d ≠ ⟨a, e - a, .used none⟩ := by rintro rfl; simp at hdf
      have h5 := Wm.has_disj hd hmH hne
      have := (Wm.has_wf hd).ge
      simp only at h5
      omega
  have hms : s1.mem = s1.mem := rfl
  obtain ⟨c1, c2, c3⟩ := Ctx.hole_mem (Mx.segs _ (Ctx.seg_mem _ _ _))
  simp only [List.map_cons, List.map_nil, List.cons_append, List.nil_append, ChunksMem] at c2
  obtain ⟨_, k1, k2, _⟩ := c2
  have kc : ∀ m : Mem, (∀ x, a + 32 ≤ x → x < e → m x = sx.mem x) → CkMem m f.use.size c ∧ CkMem m c.size r.use := by
    intro m h
    constructor
    · refine k1.congr ⟨fun x h1 h2 => h x (by omega) (by omega), fun x h1 h2 => h x (by omega) (by omega), ?_⟩
      intro p hp; rw [hc] at hp; cases hp
    · have : r.use.addr = r.addr := rfl
      refine k2.congr ⟨fun x h1 h2 => h x (by omega) (by omega), fun x h1 h2 => h x (by omega) (by omega), ?_⟩
      intro p hp; cases hp
  have hcm := (kc s1.mem hin1).1
  have efirst : releaseChunk (stdPool pb) false s (c.addr + 15) = .ok s1 := by
    unfold releaseChunk
    rw [if_neg (by simp), e1, Outcome.ok_bind]
    simp only
    rw [vLarge_eq (by omega)]
    exact e2
  -- second call
  have hmk : (⟨a, e - a, .used none⟩ : Ck).mkFree = ⟨a, e - a, .free⟩ := rfl
  rw [hmk] at M2 W2
  obtain ⟨W3, R⟩ := remove_link W2 rfl
  obtain ⟨s3, e3, M3, f3⟩ := R s1 M2
  generalize hfl2 : flDel fl1 [⟨a, e - a, .free⟩] = fl2 at W3 M3
  have hin3 : ∀ x, a + 32 ≤ x → x < e → s3.mem x = sx.mem x := by
    intro x h1 h2
    rw [f3 x ?_ ?_, hin1 x h1 h2]
    · unfold PoolAt; omega
    · rintro ⟨d, hd, hdf, h3, h4⟩
      have hmH2 := Ctx.has_of_mem ({ K with p := p', q := q' } : Ctx) fl1 (cs := [⟨a, e - a, .free⟩]) (c := ⟨a, e - a, .free⟩) (by simp)
      by_cases hne : d = ⟨a, e - a, .free⟩
      · subst hne; simp only at h4; omega
      have h5 := W2.has_disj hd hmH2 hne
      have := (W2.has_wf hd).ge
      simp only at h5
      omega
  obtain ⟨kc3, kr3⟩ := kc s3.mem hin3
  have hce : e - a < W64 := by omega
  -- the header of the merged chunk after its removal
  obtain ⟨d1, d2, d3⟩ := Ctx.hole_mem (M3.segs _ (Ctx.seg_mem _ _ _))
  simp only [ChunksMem] at d2
  obtain ⟨z, hz⟩ : ∃ z, z = lastSz 0 p' := ⟨_, rfl⟩
  have hmh := d2.1.hdr
  rw [← hz] at hmh
  generalize hw0 : (Ck.use ⟨a, e - a, .free⟩).hdrSize = w0 at hmh
  generalize hd0 : (Ck.use ⟨a, e - a, .free⟩).st.num = n0 at hmh
  rw [show (Ck.use ⟨a, e - a, .free⟩).addr = a from rfl] at hmh
  have hzle := lastSz_le ha
  rw [← hz] at hzle
  -- what the second merge leaves
  obtain ⟨m4, hm4⟩ : ∃ m4, m4 = setPrevSize s3.mem r.addr (r.addr - a) := ⟨_, rfl⟩
  obtain ⟨m5, hm5⟩ : ∃ m5, m5 = setupLargeHeader m4 a (r.addr - a) (sub64 a z) := ⟨_, rfl⟩
  have o4 : ∀ x, (x < r.addr ∨ r.addr + 16 ≤ x) → m4 x = s3.mem x := by
    intro x hx; rw [hm4]; unfold setPrevSize; exact writeLE_other (by omega)
  have o5 : ∀ x, (x < a ∨ a + 16 ≤ x) → m5 x = m4 x := by
    intro x hx; rw [hm5]; exact setupLargeHeader_other hx
  have hc3 := kc3.hdr
  rw [Ck.hdrSize_eq hcw.nstop] at hc3
  have hr3 := kr3.hdr
  rw [show r.use.addr = r.addr from rfl, Ck.hdrSize_eq hrw.use.nstop, show r.use.size = r.size from rfl,
    show r.use.st.num = SALLOC from rfl] at hr3
  have e4 : mergeChunk (stdPool pb) s1 (c.addr + 15) = .ok ({ s3 with mem := m5 }, a + 15) := by
    unfold mergeChunk
    rw [if_neg (by rw [infoState_hdr hcm, hc]; simp [CkSt.num, SALLOC])]
    have hcur : getPrevChunk s1.mem (c.addr + 15) = a + 15 := by
      rw [getPrevChunk_some (by omega) (by omega) g2 hcm, g1]
    rw [hcur, mergeLeft, if_pos]
    · have hh1 : HdrAt s1.mem a (e - a) z SFREE := by
        obtain ⟨_, b2, _⟩ := Ctx.hole_mem (M2.segs _ (Ctx.seg_mem _ _ _))
        simp only [ChunksMem] at b2
        have := b2.1.hdr
        rw [hz]
        rw [Ck.hdrSize_eq (by simp)] at this
        exact this
      rw [getPtr_large hh1 (by omega)]
      simp only [Outcome.ok_bind]
      rw [show freeListRemove (stdPool pb) s1 a = _ from e3]
      simp only [Outcome.ok_bind]
      rw [show mergeLeft (stdPool pb) s3 (a + 15) (getPrevChunk s3.mem (a + 15)) = .ok (s3, a + 15) from
        mergeLeft_fence hp' { K with p := p', q := q' } (Ck.use ⟨a, e - a, .free⟩) [] fl2 W3 M3 _]
      simp only [Outcome.ok_bind]
      have e5 : getNextChunk s3.mem (c.addr + 15) = r.addr + 15 := by
        rw [getNextChunk_large hc3 (by omega) (by omega)]; omega
      rw [e5, mergeRight_stop (Or.inr (show infoState s3.mem (r.addr + 15) = 1 from infoState_hdr kr3))]
      simp only [Outcome.ok_bind]
      rw [getPtr_large hc3 (by omega), getPtr_large hmh (by omega), Outcome.ok_bind, Outcome.ok_bind, e5,
        getSize_large hc3 (by omega), sub64_eq (by omega) (by omega)]
      have e6 : add64 (c.addr - a) c.size = r.addr - a := by
        rw [add64_eq (by omega)]; omega
      rw [e6, vLarge_eq (by omega), ← hm4]
      have hmh' : HdrAt m4 a w0 z n0 :=
        hmh.congr (fun x h1 h2 => o4 x (by omega)) (fun x h1 h2 => o4 x (by omega))
      rw [getPtr_large hmh' (by omega), Outcome.ok_bind, Outcome.ok_bind]
      unfold setupChunk
      rw [getPrevSize_large hmh' (by omega), largeToV_eq (by omega), ← hm5]
      rfl
    · refine ⟨by omega, ?_⟩
      obtain ⟨_, b2, _⟩ := Ctx.hole_mem (M2.segs _ (Ctx.seg_mem _ _ _))
      exact infoState_hdr b2.1
  -- its insertion
  have hn32 : 32 ≤ r.addr - a := by omega
  obtain ⟨j2, hi2, hj2⟩ := insertIdx_spec hn32 (by omega : r.addr - a < W63)
  have hj48 := hj2.lt
  have hm5h := setupLargeHeader_hdr m4 a (r.addr - a) (sub64 a z)
  rw [← hm5, Nat.mod_eq_of_lt (by omega)] at hm5h
  obtain ⟨m6, hm6⟩ : ∃ m6, m6 = setState m5 (a + 15) SFREE := ⟨_, rfl⟩
  have o6 : ∀ x, x ≠ a + 15 → m6 x = m5 x := by
    intro x hx; rw [hm6]; exact setState_other hx
  have W4 := wf_insAt W3 (by simp [Ck.use]) hj true
  have hm3H := Ctx.has_of_mem ({ K with p := p', q := q' } : Ctx) fl2 (cs := [Ck.use ⟨a, e - a, .free⟩]) (c := Ck.use ⟨a, e - a, .free⟩) (by simp)
  have hout : ∀ i, ∀ d ∈ fl2 i, d.addr + 32 ≤ a ∨ e ≤ d.addr := by
    intro i d hd
    have hdH := W3.flHas i d hd
    have hdf : d.st = .free := W3.flFree i d hd
    have hne : d ≠ Ck.use ⟨a, e - a, .free⟩ := by rintro rfl; simp [Ck.use] at hdf
    have h5 := W3.has_disj hdH hm3H hne
    have := (W3.has_wf hdH).ge
    simp only [Ck.use] at h5
    omega
  have hL : Links m6 ((stdPool pb).head j2) ((fl2 j2).map Ck.addr) ((stdPool pb).head j2) := by
    refine lists_frame (fl := fl2) (M3.lists j2 hj48) ?_ ?_
    · intro x h1 h2
      simp only [stdPool_head] at h1 h2
      rw [o6 x (by omega), o5 x (by omega), o4 x (by omega)]
    · intro d hd x h1 h2
      have := hout j2 d hd
      rw [o6 x (by omega), o5 x (by omega), o4 x (by omega)]
  have hNode : ∀ x ∈ a :: (stdPool pb).head j2 :: (fl2 j2).map Ck.addr,
      (({ K with p := p', q := q' } : Ctx).fill [(Ck.use ⟨a, e - a, .free⟩).mkFree]
        (updFl fl2 j (insAt true (fl2 j) (Ck.use ⟨a, e - a, .free⟩).mkFree))).Node pb x := by
    intro x hx
    simp only [List.mem_cons, List.mem_map] at hx
    rcases hx with rfl | rfl | ⟨d, hd, rfl⟩
    · refine AHeap.node_fl (c := (Ck.use ⟨x, e - x, .free⟩).mkFree) (i := j) ?_
      simp only [Ctx.fill, updFl_same]
      exact mem_insAt.2 (Or.inl rfl)
    · exact AHeap.node_head hj48
    · refine AHeap.node_fl (i := j2) (c := d) ?_
      simp only [Ctx.fill]
      by_cases h : j2 = j
      · subst h; rw [updFl_same]; exact mem_insAt.2 (Or.inr hd)
      · rw [updFl_ne _ _ h]; exact hd
  have hnd : (a :: (stdPool pb).head j2 :: (fl2 j2).map Ck.addr).Nodup := by
    rw [List.nodup_cons]
    refine ⟨?_, W3.fl_nodup hj48⟩
    intro hm
    simp only [List.mem_cons, List.mem_map] at hm
    rcases hm with hm | ⟨d, hd, hm⟩
    · simp only [stdPool_head] at hm; omega
    · have := hout j2 d hd; omega
  obtain ⟨m7, l1, l2, l3⟩ := linkChunk_at (b := true) (c := (⟨a, r.addr - a, .free⟩ : Ck)) hL rfl (W4.nodesOK hNode) hnd
  have o7 : ∀ x, a ≤ x → x < e → (x < a + 16 ∨ a + 32 ≤ x) → m7 x = m6 x := by
    intro x h1 h2 h3
    refine l3 x ?_
    intro y hy
    simp only [List.mem_cons, List.mem_map] at hy
    rcases hy with rfl | rfl | ⟨d, hd, rfl⟩
    · omega
    · simp only [stdPool_head]; omega
    · have := hout j2 d hd; omega
  refine ⟨s1, ⟨m7, setStatus s3.status j2 true⟩, fl1, efirst, ?_, hcm, ?_, ?_, ?_, ?_⟩
  · rw [g1, g4]; exact M2
  · unfold releaseChunk
    rw [if_neg (by simp), e4, Outcome.ok_bind]
    simp only
    rw [vLarge_eq (by omega)]
    unfold freeListInsert
    have hidx' : insertIdx (stdPool pb).sizes (stdPool pb).nb (stdPool pb).analytic (hSize m5 a)
        = .ok (j2 : Int) := by rw [hm5h.size]; exact hi2
    have hjn : ¬ ((j2 : Int) < 0 ∨ (48 : Int) ≤ j2) := by omega
    simp only
    rw [hidx']
    simp only [Outcome.ok_bind, if_neg hjn, Int.toNat_natCast, Outcome.pure_eq, ← hm6]
    rw [show linkChunk m6 ((stdPool pb).head j2) a true = .ok m7 from l1]
    rfl
  · have := hm5h.setState (by omega) (w := SFREE) (by simp [SFREE])
    rw [← hm6] at this
    refine ⟨prevField a (sub64 a z), ?_⟩
    rw [g1]
    exact this.congr (fun x h1 h2 => o7 x (by omega) (by omega) (by omega)) (fun x h1 h2 => o7 x (by omega) (by omega) (by omega))
  · have := hr3.setPrevSize (r.addr - a)
    rw [← hm4, Nat.mod_eq_of_lt (by omega)] at this
    rw [g1]
    have ag : ∀ x, r.addr ≤ x → x < r.addr + 16 → m7 x = m4 x := by
      intro x h1 h2
      rw [o7 x (by omega) (by omega) (by omega), o6 x (by omega), o5 x (by omega)]
    exact this.congr (fun x h1 h2 => ag x (by omega) (by omega)) (fun x h1 h2 => ag x (by omega) (by omega))
  · intro d hd
    have hdH : (({ K with p := p', q := q' } : Ctx).fill [Ck.use ⟨a, e - a, .free⟩] fl2).Has d :=
      (Ctx.has _ _ _ _).2 (hd.elim (fun h => Or.inr (Or.inl h)) (fun h => Or.inr (Or.inr (Or.inl h))))
    obtain ⟨z', hz'⟩ := M3.hdr hdH
    have hdw := W3.has_wf hdH
    have hdp := W3.has_pool hdH
    have hd32 := hdw.ge
    refine ⟨z', ?_⟩
    have hh := hz'.hdr
    rw [Ck.hdrSize_eq hdw.nstop] at hh
    have hdo : d.addr + d.size ≤ a ∨ e ≤ d.addr := by
      rcases hd with h | h
      · have := tiles_mem ha h; omega
      · have := tiles_mem t3'' (c := d) (by simp [h]); omega
    have ag : ∀ x, d.addr ≤ x → x < d.addr + 16 → m7 x = s3.mem x := by
      intro x h1 h2
      rw [l3 x ?_, o6 x (by omega), o5 x (by omega), o4 x (by omega)]
      intro y hy
      simp only [List.mem_cons, List.mem_map] at hy
      rcases hy with rfl | rfl | ⟨d', hd', rfl⟩
      · omega
      · simp only [stdPool_head]; omega
      · have hd'H := W3.flHas j2 d' hd'
        have := (W3.has_wf hd'H).ge
        by_cases hne : d' = d
        · subst hne; omega
        · have := W3.has_disj hd'H hdH hne; omega
    exact hh.congr (fun x h1 h2 => ag x (by omega) (by omega)) (fun x h1 h2 => ag x (by omega) (by omega))

theorem chunks_hdr {m : Mem} {a e : Nat} {l : List Ck} (h : Tiles a l e)
    (hw : ∀ c ∈ l, 0 < c.size ∧ c.st ≠ .stop ∧ ∃ z, HdrAt m c.addr c.size z c.st.num) : Chunks m a e (l.map Ck.view) := by
  induction l generalizing a with
  | nil => simp only [Tiles] at h; subst h; exact .nil _
  | cons c l ih =>
    obtain ⟨h0, hs, z, hz⟩ := hw c (by simp)
    obtain ⟨rfl, h2⟩ := h
    have hle := tiles_le h2
    have h3 := ih h2 (fun d hd => hw d (by simp [hd]))
    have e1 : readLE m c.addr 7 = c.size := hz.size
    have e2 : decide ((m (c.addr + 15)).toNat / 4 % 2 = 0) = decide (c.st = .free) := by
      have := hz.state (CkSt.num_lt _)
      unfold infoState at this
      rw [this]
      cases hc : c.st <;> simp_all [CkSt.num]
    have := Chunks.cons (a := c.addr) (e := e) (m := m) (by omega) (by rw [e1]; exact h3)
    rw [e1, e2] at this
    exact this

/-- Fences of a run in a heap without neighbouring free chunks. -/
theorem noAdj_fences {p' q' : List Ck} {f c r : Ck} (h : (p' ++ f :: c :: r :: q').IsChain NotBothFree)
    (hf : f.st = .free) (hr : r.st = .free) :
    (∀ l d, p' = l ++ [d] → d.st ≠ .free) ∧ (∀ l d, q' = d :: l → d.st ≠ .free) := by
  constructor
  · rintro l d rfl hd
    rw [List.append_assoc, List.isChain_append] at h
    have h2 := h.2.1
    rw [List.cons_append, List.nil_append, List.isChain_cons_cons] at h2
    exact h2.1 ⟨hd, hf⟩
  · rintro l d rfl hd
    rw [List.isChain_append] at h
    have h2 := h.2.1
    rw [List.isChain_cons_cons, List.isChain_cons_cons, List.isChain_cons_cons] at h2
    exact h2.2.2.1 ⟨hr, hd⟩

variable {σ : Type}

/-- A free that goes as far as the pool: the chunk found behind the pointer is marked in use and small. -/
theorem chainFree_release {S : Source σ} {C : Config} {pb p v : Nat} {s : CS σ} {h' : Heap} (hd : s.c.dead = false)
    (hl : s.c.lock = false) (hp : s.c.pool = stdPool pb) (hsrc : s.c.hasSrc = false) (hm : s.c.noMerge = false)
    (hp0 : p ≠ 0) (hv0 : v ≠ 0) (g1 : getChunkUnpadded s.w.mem p = .ok v) (g2 : infoState s.w.mem v = SALLOC)
    (hb : ∃ v, (if s.c.base ≠ 0 then getChunk s.w.mem (add64 s.c.base 16) else pure 0) = .ok v)
    (e : releaseChunk (stdPool pb) false s.heap v = .ok h') : chainFree S C s p = .ok (s.setHeap h') := by
  unfold chainFree
  rw [if_neg (by simp [hd]), if_neg hp0, g1, Outcome.ok_bind, if_neg hv0, if_neg (by simp [g2])]
  have hh : isHuge s.c (getSize s.w.mem v) = false := by simp [isHuge, hsrc]
  rw [hh, if_neg (by simp), lockIf_ok hd hl, Outcome.ok_bind]
  have hk := freeLocked_ok S (t := { s with c := { s.c with lock := s.c.threadSafe } }) hp hsrc hm hb e
  rw [hk, Outcome.ok_bind, unlockIf_ok hd hl]

/-- The situation of C12: three chunks, of which only the middle one is in use. -/
theorem block_between_free : ∃ (s : CS Unit) (q k cs rs : Nat), Reach S0 Config.default 4096 s [⟨q, 200, true⟩] [(8192, 4096)] ∧
    s.c.noMerge = false ∧ q = 8224 + k + 16 ∧
    BufChunks s.w.mem 8192 4096 [(8224, k, true), (8224 + k, cs, false), (8224 + k + cs, rs, true)] := by
  obtain ⟨s0, s, A0, A, d, O⟩ := one_block (b := 0) (n := 100) sampleBuf_4096 (Or.inl (by omega)) (by omega)
    (by simp) (by omega)
  have hs := O.size (by simp)
  simp only [Nat.not_lt_zero, if_false] at hs
  obtain ⟨s', A', d', e', G, hne, R', H', g1⟩ := O.second (b' := 0) (n' := 200) (Or.inl (by omega)) (by omega)
    (by omega) (by simp; omega)
  have hdU : A'.Used d := (G.used d).2 (Or.inl O.used)
  have hdU' : A'.Used d' := (G.used d').2 (Or.inr rfl)
  have hda : d.addr = 8224 := O.got.addr
  have hda' : d'.addr = 8224 + d.size := G.addr
  have hdn : d ≠ d' := by intro h; rw [h] at hda; have := (H'.wf.has_wf hdU.1).ge; omega
  have hst' : d'.st = .used none := G.noPad (by omega)
  have hup : d'.uptr = d'.addr + 16 := by unfold Ck.uptr Ck.off; rw [hst']
  obtain ⟨A2, R2, _, hs2⟩ := free_ok S0 Config.default H'.wf hdU s'.c.noMerge
  obtain ⟨h2, e2, _⟩ := hs2 s' H'.inv H'.src rfl
  obtain ⟨A3, R3, H3, hm3, _⟩ := H'.free S0 Config.default hdU e2
  have hptr : d.uptr ≠ d'.uptr := fun h => hdn (H'.wf.uptr_inj hdU.1 hdU'.1 h)
  have hov : ValidOp 4096 [⟨d'.uptr, 200, decide (0 ≤ 1)⟩, ⟨d.uptr, 100, decide (0 ≤ 1)⟩] [(8192, 4096)] (.free d.uptr) :=
    Or.inr ⟨⟨d.uptr, 100, decide (0 ≤ 1)⟩, by simp, rfl⟩
  have hu := H'.wf.uptr_ge d
  have R4 := R'.step (op := .free d.uptr) hov trivial (r := 0) (s' := s'.setHeap h2) (by
    show (do let s ← chainFree S0 Config.default s' d.uptr; pure (s, 0)) = _
    rw [e2]; rfl)
  have hacc : account [⟨d'.uptr, 200, decide (0 ≤ 1)⟩, ⟨d.uptr, 100, decide (0 ≤ 1)⟩] (.free d.uptr) 0 =
      [⟨d'.uptr, 200, true⟩] := by
    simp [account, Ne.symm hptr]
  rw [hacc] at R4 H3
  have hdU3 : A3.Used d' := (R3.used d').2 ⟨hdU', Ne.symm hdn⟩
  have honly : ∀ x, A3.Has x → x ≠ d' → x.st = .free := by
    intro x hx hne
    rcases AHeap.has_used_or_free H3.wf hx with h | h
    · exfalso
      have h1 := (R3.used x).1 h
      rcases (G.used x).1 h1.1 with h2 | h2
      · exact h1.2 (O.only x h2)
      · exact hne h2
    · exact h
  have hnm : (s'.setHeap h2).c.noMerge = false := hm3.trans g1
  obtain ⟨g, hg, hb1, hb2, hch⟩ := H3.seg (y := (8192, 4096)) (by simp)
  have hwg := H3.wf.seg g hg
  have hna := H3.noAdj hnm g hg
  have hdg : d' ∈ g.chunks := by
    obtain ⟨g', hg', hdg⟩ := hdU3.1
    have : g' = g := by
      by_contra hne
      have h5 := H3.wf.seg_disj hg' hg hne
      have h6 := (H3.wf.seg g' hg').ge
      have h7 := H3.segOf hg'
      simp only [List.mem_singleton, Prod.mk.injEq] at h7
      simp only at hb1 hb2
      omega
    rw [← this]; exact hdg
  obtain ⟨p, q, hpq⟩ := List.append_of_mem hdg
  have ht := hwg.tiles
  rw [hpq] at ht hna
  obtain ⟨tp, tq⟩ := tiles_mid ht
  have hge' := (H3.wf.has_wf hdU3.1).ge
  have hpf : ∀ x ∈ p, x.st = .free := by
    intro x hx
    refine honly x ⟨g, hg, by rw [hpq]; simp [hx]⟩ ?_
    rintro rfl
    have := tiles_mem tp hx; omega
  have hqf : ∀ x ∈ q, x.st = .free := by
    intro x hx
    refine honly x ⟨g, hg, by rw [hpq]; simp [hx]⟩ ?_
    rintro rfl
    have := tiles_mem tq hx; omega
  obtain ⟨hna1, hna2, _⟩ := List.isChain_append.1 hna
  have hna3 := (List.isChain_cons.1 hna2).2
  have hlp := isChain_single hna1 (fun a ha b hb h => h ⟨hpf a ha, hpf b hb⟩)
  have hlq := isChain_single hna3 (fun a ha b hb h => h ⟨hqf a ha, hqf b hb⟩)
  have hs' := G.tight
  unfold cutSize at hs'
  rw [show alignedSize 0 200 = 200 from rfl, calc_eq (by omega)] at hs'
  simp only at hb1 hb2
  match p, hlp, tp, hpf, hpq with
  | [], _, tp, _, _ => simp only [Tiles] at tp; omega
  | [f], _, tp, hpf, hpq =>
    match q, hlq, tq, hqf, hpq with
    | [], _, tq, _, _ => simp only [Tiles] at tq; omega
    | [r], _, tq, hqf, hpq =>
      simp only [Tiles] at tp tq
      have hff := hpf f (by simp)
      have hrf := hqf r (by simp)
      refine ⟨s'.setHeap h2, d'.uptr, f.size, d'.size, r.size, R4, hnm, by omega, ?_⟩
      rw [hpq] at hch
      have hv1 : f.view = (8224, f.size, true) := by simp [Ck.view, hff]; omega
      have hv2 : d'.view = (8224 + f.size, d'.size, false) := by simp [Ck.view, hst']; omega
      have hv3 : r.view = (8224 + f.size + d'.size, r.size, true) := by simp [Ck.view, hrf]; omega
      simp only [List.cons_append, List.nil_append, List.map_cons, List.map_nil, hv1, hv2, hv3] at hch
      exact hch

theorem Chunks.sum {m : Mem} {a e : Nat} {l : List (Nat × Nat × Bool)} (h : Chunks m a e l) :
    a + (l.map (fun c => c.2.1)).sum = e := by
  induction h with
  | nil a => simp
  | cons _ _ ih => simp only [List.map_cons, List.sum_cons]; omega

end MpcAlloc
