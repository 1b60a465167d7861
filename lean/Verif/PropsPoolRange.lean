import Verif.PoolRange
import Verif.PropsChain

/-!
C74: `sctk_alloc_free_chunk_range` takes exactly the free chunks of the range out of the free lists.
-/

namespace MpcAlloc

variable {σ : Type}

/-- A buffer whose chunks are known, as a context around a run of chunks. -/
theorem HInv.split {pb : Nat} {s : CS σ} {L : List Block} {B : List (Nat × Nat)} {A : AHeap} (H : HInv pb s L B A)
    {y : Nat × Nat} (hy : y ∈ B) {l1 mid l2 : List (Nat × Nat × Bool)} (hl : BufChunks s.w.mem y.1 y.2 (l1 ++ mid ++ l2))
    {a : Nat × Nat × Bool} (ha : mid.head? = some a) :
    ∃ (K : Ctx) (c : Ck) (G q : List Ck), A = ({ K with q := G ++ q } : Ctx).fill [c] A.fl ∧ K.base = y.1 ∧ K.size = y.2 ∧
      l1 = K.p.map Ck.view ∧ mid = (c :: G).map Ck.view ∧ l2 = q.map Ck.view := by
  obtain ⟨g, hg, e1, e2, hch⟩ := H.seg hy
  have e := hl.unique hch
  rw [List.append_assoc] at e
  obtain ⟨p, r, er, ep, e3⟩ := List.map_eq_append_iff.1 e.symm
  obtain ⟨m, q, er', em, eq⟩ := List.map_eq_append_iff.1 e3
  obtain ⟨S1, S2, eS⟩ := List.append_of_mem hg
  cases m with
  | nil => rw [← em] at ha; simp at ha
  | cons c G =>
    refine ⟨⟨S1, S2, g.base, g.size, p, []⟩, c, G, q, ?_, e1, e2, ep.symm, em.symm, eq.symm⟩
    obtain ⟨gb, gs, gc⟩ := g
    obtain ⟨As, Af⟩ := A
    simp only at er eS
    simp only [Ctx.fill, Ctx.seg, AHeap.mk.injEq, and_true]
    rw [eS, er, er']
    simp

/-- **C74**: in any reachable state, for any run `mid` of neighbours of a buffer, the call with the first and the last
of them succeeds. The chunks of `mid` are then all marked used, the other chunks of all the buffers are as before;
from each free list exactly the chunks of `mid` are gone, in order, and its status says whether it is empty; the bytes
outside of the list heads and of the headers and links of the chunks that were free are unchanged, in particular those
of the live blocks. -/
theorem C74_range_taken {S : Source σ} {C : Config} {pb : Nat} {s : CS σ} {L : List Block} {B : List (Nat × Nat)}
    (hf : C.reallocFactor ≠ 0) (h : Reach S C pb s L B) {y : Nat × Nat} (hy : y ∈ B)
    {l1 mid l2 : List (Nat × Nat × Bool)} (hl : BufChunks s.w.mem y.1 y.2 (l1 ++ mid ++ l2))
    {a z : Nat × Nat × Bool} (ha : mid.head? = some a) (hz : mid.getLast? = some z) :
    ∃ h', freeChunkRange s.c.pool s.heap (a.1 + 15) (z.1 + 15) = .ok h' ∧
      BufChunks h'.mem y.1 y.2 (l1 ++ mid.map markUsed ++ l2) ∧
      (∀ t ∈ B, t ≠ y → ∀ l, BufChunks s.w.mem t.1 t.2 l → BufChunks h'.mem t.1 t.2 l) ∧
      (∀ i, i < 48 → ∃ l, FreeList s.w.mem (pb + 32 * i) l ∧
        FreeList h'.mem (pb + 32 * i) (l.filter (fun x => decide (x ∉ mid.map Prod.fst))) ∧
        (h'.status i = true ↔ ∃ x ∈ l, x ∉ mid.map Prod.fst)) ∧
      (∀ x, ¬ InHeads pb x →
        (∀ t ∈ B, ∀ l, BufChunks s.w.mem t.1 t.2 l → ∀ c ∈ l, c.2.2 = true → ¬ (c.1 ≤ x ∧ x < c.1 + 32)) →
        h'.mem x = s.w.mem x) ∧
      ∀ b ∈ L, ∀ x, b.Byte x → h'.mem x = s.w.mem x := by
  obtain ⟨A, H⟩ := reach_inv hf h
  obtain ⟨K, c, G, q, eA, eb, es, e1, em, e2⟩ := H.split hy hl ha
  have W := H.wf
  rw [eA] at W
  obtain ⟨W', R⟩ := range_ok G K c A.fl W
  have M := H.inv.mem
  rw [eA] at M
  obtain ⟨h', r1, r2, r3⟩ := R s.heap M
  rw [← eA] at r3
  have haa : a.1 = c.addr := by rw [em] at ha; simp at ha; rw [← ha]; rfl
  have hzz : z.1 = (G.getLast?.getD c).addr := by
    rw [em] at hz
    rw [List.map_cons, List.getLast?_cons, List.getLast?_map] at hz
    cases hg : G.getLast? with
    | none => rw [hg] at hz; simp at hz; rw [← hz]; rfl
    | some g => rw [hg] at hz; simp at hz; rw [← hz]; rfl
  -- chunks after the call
  have hchunks : ∀ g ∈ (({ K with q := q } : Ctx).fill ((c :: G).map Ck.taken) (flDel A.fl (c :: G))).segs,
      BufChunks h'.mem g.base g.size (g.chunks.map Ck.view) := by
    intro g hg
    have hw := W'.seg g hg
    have hm := (r2.segs g hg).chunks
    rw [Seg.ext, chunksMem_append] at hm
    exact chunks_of hw.tiles hm.1 hw.chunks
  have hbytes : ∀ x, ¬ InHeads pb x →
      (∀ t ∈ B, ∀ l, BufChunks s.w.mem t.1 t.2 l → ∀ c ∈ l, c.2.2 = true → ¬ (c.1 ≤ x ∧ x < c.1 + 32)) →
      h'.mem x = s.w.mem x := by
    intro x hx hn
    refine r3 x hx ?_
    rintro ⟨d, ⟨g, hg, hd⟩, hdf, hd1, hd2⟩
    exact hn _ (H.segOf hg) _ (H.chunksOf hg) d.view (List.mem_map.2 ⟨d, hd, rfl⟩) (by simp [Ck.view, hdf]) ⟨hd1, hd2⟩
  refine ⟨h', ?_, ?_, ?_, ?_, hbytes, ?_⟩
  · rw [H.inv.pool, haa, hzz]; exact r1
  · have := hchunks _ (Ctx.seg_mem ({ K with q := q } : Ctx) _ _)
    rw [e1, em, e2, ← eb, ← es]
    simp only [Ctx.seg, List.map_append, List.map_map] at this
    have ev : (c :: G).map (Ck.view ∘ Ck.taken) = (c :: G).map (markUsed ∘ Ck.view) :=
      List.map_congr_left (fun d _ => d.view_taken)
    rw [ev] at this
    simpa only [List.map_map] using this
  · intro t ht hne l hlt
    obtain ⟨g, hg, g1, g2, hch⟩ := H.seg ht
    rw [hlt.unique hch, ← g1, ← g2]
    refine hchunks g ?_
    rw [eA] at hg
    simp only [Ctx.fill, List.mem_append, List.mem_cons] at hg ⊢
    rcases hg with hg | hg | hg
    · exact Or.inl hg
    · exfalso
      apply hne
      rw [hg] at g1 g2
      simp only [Ctx.seg] at g1 g2
      exact Prod.ext (g1.symm.trans eb) (g2.symm.trans es)
    · exact Or.inr (Or.inr hg)
  · intro i hi
    have hnd := H.wf.fl_nodup hi
    have hfe : ((A.fl i).map Ck.addr).filter (fun x => decide (x ∉ mid.map Prod.fst)) =
        (flDel A.fl (c :: G) i).map Ck.addr := by
      unfold flDel
      rw [List.filter_map]
      congr 1
      apply List.filter_congr
      intro d hd
      have hdH := H.wf.flHas i d hd
      simp only [Function.comp, decide_eq_decide]
      refine not_congr ⟨fun hx => ?_, fun hx => ?_⟩
      · obtain ⟨v, hv, hve⟩ := List.mem_map.1 hx
        rw [em] at hv
        obtain ⟨f, hf', hfv⟩ := List.mem_map.1 hv
        have hfa : f.addr = d.addr := by rw [← hve, ← hfv]; rfl
        have hfH : A.Has f := by
          rw [eA]
          refine (Ctx.has _ _ _ _).2 ?_
          rcases List.mem_cons.1 hf' with rfl | hf'
          · exact Or.inl (by simp)
          · exact Or.inr (Or.inr (Or.inl (List.mem_append_left _ hf')))
        have : d = f := by
          by_contra hne
          have h1 := H.wf.has_disj hdH hfH hne
          have h2 := (H.wf.has_wf hdH).ge
          have h3 := (H.wf.has_wf hfH).ge
          omega
        rw [this]; exact hf'
      · rw [em, List.map_map]
        exact List.mem_map.2 ⟨d, hx, rfl⟩
    refine ⟨(A.fl i).map Ck.addr, ⟨listWalk_iff.2 (H.inv.mem.lists i hi), hnd⟩, ?_, ?_⟩
    · rw [hfe]
      exact ⟨listWalk_iff.2 (r2.lists i hi), W'.fl_nodup hi⟩
    · rw [r2.status i hi]
      show flDel A.fl (c :: G) i ≠ [] ↔ _
      have : flDel A.fl (c :: G) i ≠ [] ↔ ((A.fl i).map Ck.addr).filter (fun x => decide (x ∉ mid.map Prod.fst)) ≠ [] := by
        rw [hfe]; simp
      rw [this, ne_eq, List.filter_eq_nil_iff]
      simp
  · intro b hb x hx
    obtain ⟨k, hk, e, f, _⟩ := H.live.used b hb
    have hkr := H.wf.uptr_ge k
    unfold Block.Byte at hx
    refine hbytes x (C02_inside_buffers_partial hf h hb |>.2 x hx) ?_
    intro t ht l hlt d hd hdf hdx
    have hdH := H.hasOf ht hlt (a := d.1) (sz := d.2.1) (by rw [← hdf]; exact hd)
    have hne : (⟨d.1, d.2.1, .free⟩ : Ck) ≠ k := by
      rintro rfl
      obtain ⟨p, hp⟩ := hk.2
      cases hp
    have h1 := H.wf.has_disj hdH hk.1 hne
    have h2 := (H.wf.has_wf hdH).ge
    simp only at h1 h2
    omega

/-- Met by a range of all the chunks of a buffer with one live block: a used chunk and a free one. -/
theorem sample_range : ∃ (s : CS Unit) (L : List Block) (l : List (Nat × Nat × Bool)) (a z c d : Nat × Nat × Bool),
    Reach S0 Config.default 4096 s L [(8192, 4096)] ∧ BufChunks s.w.mem 8192 4096 ([] ++ l ++ []) ∧ l.head? = some a ∧
    l.getLast? = some z ∧ c ∈ l ∧ c.2.2 = true ∧ d ∈ l ∧ d.2.2 = false := by
  obtain ⟨s0, s, A0, A, d, O⟩ := one_block (b := 0) (n := 100) sampleBuf_4096 (Or.inl (by omega)) (by omega)
    (by simp) (by omega)
  have hs := O.size (by simp)
  simp only [Nat.not_lt_zero, if_false] at hs
  obtain ⟨g, hg, _, _, hch⟩ := O.inv.seg (y := (8192, 4096)) (by simp)
  have hone : ∀ g' ∈ A.segs, g' = g := by
    have hb := O.inv.bufs
    unfold AHeap.shape at hb
    intro g' hg'
    have hlen : A.segs.length = 1 := by
      have := congrArg List.length hb
      simpa using this
    obtain ⟨k, hk⟩ := List.length_eq_one_iff.1 hlen
    rw [hk, List.mem_singleton] at hg hg'
    rw [hg, hg']
  have hF : A.Has ⟨8192 + 32 + d.size, 4096 - 48 - d.size, .free⟩ := (O.free rfl).2 ⟨by omega, rfl⟩
  obtain ⟨u, hu, _⟩ := O.inv.live.used _ (List.mem_cons_self ..)
  obtain ⟨g1, hg1, hf1⟩ := hF
  obtain ⟨g2, hg2, hf2⟩ := hu.1
  rw [hone g1 hg1] at hf1
  rw [hone g2 hg2] at hf2
  obtain ⟨p, hp⟩ := hu.2
  obtain ⟨l, hl⟩ : ∃ l, l = g.chunks.map Ck.view := ⟨_, rfl⟩
  have m1 : Ck.view ⟨8192 + 32 + d.size, 4096 - 48 - d.size, .free⟩ ∈ l := by rw [hl]; exact List.mem_map.2 ⟨_, hf1, rfl⟩
  have m2 : u.view ∈ l := by rw [hl]; exact List.mem_map.2 ⟨_, hf2, rfl⟩
  have hne : l ≠ [] := List.ne_nil_of_mem m2
  refine ⟨s, _, l, l.head hne, l.getLast hne, _, _, O.reach, by rw [hl]; simpa using hch, List.head?_eq_some_head hne,
    List.getLast?_eq_some_getLast hne, m1, rfl, m2, ?_⟩
  simp [Ck.view, hp]

example : ∃ (s : CS Unit) (L : List Block) (l : List (Nat × Nat × Bool)) (a z : Nat × Nat × Bool) (h' : Heap),
    Reach S0 Config.default 4096 s L [(8192, 4096)] ∧ BufChunks s.w.mem 8192 4096 l ∧
    freeChunkRange s.c.pool s.heap (a.1 + 15) (z.1 + 15) = .ok h' ∧ BufChunks h'.mem 8192 4096 (l.map markUsed) ∧
    l.map markUsed ≠ l := by
  obtain ⟨s, L, l, a, z, c, d, R, hl, ha, hz, hc, hcf, _⟩ := sample_range
  obtain ⟨h', e, h1, _⟩ := C74_range_taken default_factor R (y := (8192, 4096)) (by simp) hl ha hz
  refine ⟨s, L, l, a, z, h', R, by simpa using hl, e, by simpa using h1, ?_⟩
  intro he
  have : c ∈ l.map markUsed := by rw [he]; exact hc
  obtain ⟨k, _, hk⟩ := List.mem_map.1 this
  rw [← hk] at hcf
  cases hcf

/-- The range must stay in one buffer: if the last chunk is beyond the buffer of the first one, the loop turns for ever
on the end mark. -/
theorem C74_two_buffers {S : Source σ} {C : Config} {pb : Nat} {s : CS σ} {L : List Block} {B : List (Nat × Nat)}
    (hf : C.reallocFactor ≠ 0) (h : Reach S C pb s L B) {y : Nat × Nat} (hy : y ∈ B)
    {l : List (Nat × Nat × Bool)} (hl : BufChunks s.w.mem y.1 y.2 l) {a : Nat × Nat × Bool} (ha : a ∈ l) {z : Nat}
    (hz : y.1 + y.2 ≤ z) : freeChunkRange s.c.pool s.heap (a.1 + 15) (z + 15) = .diverge := by
  obtain ⟨A, H⟩ := reach_inv hf h
  obtain ⟨l1, l2, rfl⟩ := List.append_of_mem ha
  obtain ⟨K, c, G, q, eA, eb, es, e1, em, e2⟩ := H.split hy (l1 := l1) (mid := [a]) (l2 := l2) (by simpa using hl) rfl
  have W := H.wf
  rw [eA] at W
  have M := H.inv.mem
  rw [eA] at M
  have haa : a.1 = c.addr := by simp at em; rw [em.1]; rfl
  rw [H.inv.pool, haa]
  exact range_past (G ++ q) K c A.fl W s.heap _ M (by rw [eb, es]; omega)

example : ∃ (s : CS Unit) (L : List Block) (a : Nat × Nat × Bool),
    Reach S0 Config.default 4096 s L [(8192, 4096)] ∧
    freeChunkRange s.c.pool s.heap (a.1 + 15) (16384 + 32 + 15) = .diverge := by
  obtain ⟨s, L, l, a, z, c, d, R, hl, ha, hz, hc, hcf, _⟩ := sample_range
  exact ⟨s, L, c, R, C74_two_buffers default_factor R (y := (8192, 4096)) (by simp) (l := l) (by simpa using hl) hc (by omega)⟩

end MpcAlloc
