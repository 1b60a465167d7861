import Verif.PropsReallocPolicy

/-!
C77: the chunks of a chain depend only on its live blocks, not on its past.
-/

namespace MpcAlloc

variable {σ τ : Type}

/-! ### Specification -/

/-- Two states have the same chunks in all buffers: same places, same sizes, same ones free. -/
def SameChunks (B : List (Nat × Nat)) (m m' : Mem) : Prop :=
  ∀ y ∈ B, ∀ l, BufChunks m y.1 y.2 l ↔ BufChunks m' y.1 y.2 l

/-! ### Lemmas -/

/-- Chunks (address, size, free) that fill the bytes from `a` to `e`. -/
def Tile : Nat → List (Nat × Nat × Bool) → Nat → Prop
  | a, [], e => a = e
  | a, c :: l, e => c.1 = a ∧ 0 < c.2.1 ∧ Tile (a + c.2.1) l e

theorem tile_le {a e : Nat} {l : List (Nat × Nat × Bool)} (h : Tile a l e) : a ≤ e := by
  induction l generalizing a with
  | nil => exact Nat.le_of_eq h
  | cons c l ih =>
    have := ih h.2.2
    omega

theorem tile_mem {a e : Nat} {l : List (Nat × Nat × Bool)} (h : Tile a l e) {c : Nat × Nat × Bool} (hc : c ∈ l) : a ≤ c.1 := by
  induction l generalizing a with
  | nil => simp at hc
  | cons d l ih =>
    rcases List.mem_cons.1 hc with rfl | hc
    · exact Nat.le_of_eq h.1.symm
    · have := ih h.2.2 hc
      omega

def NotBoth (c d : Nat × Nat × Bool) : Prop := ¬ (c.2.2 = true ∧ d.2.2 = true)

theorem tile_view {a e : Nat} {l : List Ck} (h : Tiles a l e) (hw : ∀ c ∈ l, c.WF) : Tile a (l.map Ck.view) e := by
  induction l generalizing a with
  | nil => exact h
  | cons c l ih =>
    have := (hw c (by simp)).ge
    exact ⟨h.1, by simp only [Ck.view]; omega, ih h.2 (fun d hd => hw d (by simp [hd]))⟩

/-- A free chunk at `a`, not followed by a free one, ends where the next used chunk begins. -/
theorem tile_free_le {a e z z' : Nat} {t t' : List (Nat × Nat × Bool)} (h : Tile a ((a, z, true) :: t) e)
    (h' : Tile a ((a, z', true) :: t') e) (n : ((a, z, true) :: t).IsChain NotBoth)
    (hu : ∀ x y, (x, y, false) ∈ (a, z, true) :: t → (x, y, false) ∈ (a, z', true) :: t') : z' ≤ z := by
  by_contra hc
  have h1 := h.2.2
  have h2 := tile_le h'.2.2
  have h3 := h.2.1
  simp only at h1 h2 h3
  cases t with
  | nil =>
    have : a + z = e := h1
    omega
  | cons c t =>
    rw [List.isChain_cons] at n
    have hcf := n.1 c (by simp)
    obtain ⟨x, y, f⟩ := c
    cases f with
    | true => exact hcf ⟨rfl, rfl⟩
    | false =>
      have hx : x = a + z := h1.1
      rcases List.mem_cons.1 (hu x y (by simp)) with hm | hm
      · simp at hm
      · have := tile_mem h'.2.2 hm
        simp only at this
        omega

/-- The used chunks determine all chunks if no two free chunks are neighbours. -/
theorem tile_unique {a e : Nat} {l l' : List (Nat × Nat × Bool)} (h : Tile a l e) (h' : Tile a l' e)
    (n : l.IsChain NotBoth) (n' : l'.IsChain NotBoth) (hu : ∀ x z, (x, z, false) ∈ l ↔ (x, z, false) ∈ l') : l = l' := by
  induction l generalizing a l' with
  | nil =>
    cases l' with
    | nil => rfl
    | cons d t' =>
      have h1 : a = e := h
      have h2 := tile_le h'.2.2
      have h3 := h'.2.1
      omega
  | cons c t ih =>
    cases l' with
    | nil =>
      have h1 : a = e := h'
      have h2 := tile_le h.2.2
      have h3 := h.2.1
      omega
    | cons d t' =>
      obtain ⟨x, z, f⟩ := c
      obtain ⟨x', z', f'⟩ := d
      have e1 : x = a := h.1
      have e2 : x' = a := h'.1
      subst e1
      subst e2
      have hz : 0 < z := h.2.1
      have hz' : 0 < z' := h'.2.1
      have key : z = z' ∧ f = f' := by
        cases f with
        | false =>
          rcases List.mem_cons.1 ((hu x' z).1 (by simp)) with hm | hm
          · simp only [Prod.mk.injEq] at hm
            exact ⟨hm.2.1, hm.2.2⟩
          · have := tile_mem h'.2.2 hm
            simp only at this
            omega
        | true =>
          cases f' with
          | false =>
            rcases List.mem_cons.1 ((hu x' z').2 (by simp)) with hm | hm
            · simp at hm
            · have := tile_mem h.2.2 hm
              simp only at this
              omega
          | true =>
            have h1 := tile_free_le h h' n (fun p q hp => (hu p q).1 hp)
            have h2 := tile_free_le h' h n' (fun p q hp => (hu p q).2 hp)
            exact ⟨by omega, rfl⟩
      obtain ⟨rfl, rfl⟩ := key
      rw [List.isChain_cons] at n n'
      congr 1
      refine ih h.2.2 h'.2.2 n.2 n'.2 (fun p q => ?_)
      have hpq := hu p q
      constructor
      · intro hm
        rcases List.mem_cons.1 (hpq.1 (List.mem_cons_of_mem _ hm)) with he | he
        · have := tile_mem h.2.2 hm
          simp only [Prod.mk.injEq] at he this
          omega
        · exact he
      · intro hm
        rcases List.mem_cons.1 (hpq.2 (List.mem_cons_of_mem _ hm)) with he | he
        · have := tile_mem h'.2.2 hm
          simp only [Prod.mk.injEq] at he this
          omega
        · exact he

theorem HInv.tile {pb : Nat} {s : CS σ} {L : List Block} {B : List (Nat × Nat)} {A : AHeap} (H : HInv pb s L B A)
    (hm : s.c.noMerge = false) {y : Nat × Nat} (hy : y ∈ B) {l : List (Nat × Nat × Bool)}
    (hl : BufChunks s.w.mem y.1 y.2 l) : Tile (y.1 + 32) l (y.1 + y.2 - 16) ∧ l.IsChain NotBoth := by
  obtain ⟨g, hg, e1, e2, hch⟩ := H.seg hy
  rw [Chunks.unique hl hch]
  have hw := H.wf.seg g hg
  refine ⟨?_, ?_⟩
  · rw [← e1, ← e2]; exact tile_view hw.tiles hw.chunks
  · rw [List.isChain_map]
    refine (H.noAdj hm g hg).imp ?_
    intro c d hcd h
    apply hcd
    simpa [Ck.view] using h

/-! ### C77 -/

/-- C77: take two states of two chains that merge, after any two histories, and a buffer that both have. If the used
chunks of the buffer are the same, so are the free ones. -/
theorem C77_canonical {S : Source σ} {S' : Source τ} {C C' : Config} {pb pb' : Nat} {s : CS σ} {t : CS τ} {L L' : List Block}
    {B B' : List (Nat × Nat)} (hf : C.reallocFactor ≠ 0) (hf' : C'.reallocFactor ≠ 0) (h : Reach S C pb s L B)
    (h' : Reach S' C' pb' t L' B') (hm : s.c.noMerge = false) (hm' : t.c.noMerge = false) {y : Nat × Nat} (hy : y ∈ B)
    (hy' : y ∈ B') {l l' : List (Nat × Nat × Bool)} (hl : BufChunks s.w.mem y.1 y.2 l) (hl' : BufChunks t.w.mem y.1 y.2 l')
    (hu : ∀ a z, (a, z, false) ∈ l ↔ (a, z, false) ∈ l') : l = l' := by
  obtain ⟨A, H⟩ := reach_inv hf h
  obtain ⟨A', H'⟩ := reach_inv hf' h'
  obtain ⟨h1, h2⟩ := H.tile hm hy hl
  obtain ⟨h3, h4⟩ := H'.tile hm' hy' hl'
  exact tile_unique h1 h3 h2 h4 hu

theorem exec_noMerge {S : Source σ} {C : Config} {pb : Nat} {s s' : CS σ} {L : List Block} {B : List (Nat × Nat)} {op : Op} {r : Nat}
    (hf : C.reallocFactor ≠ 0) (h : Reach S C pb s L B) (hv : ValidOp pb L B op) (hr : RegOK s op)
    (e : exec S C s op = .ok (s', r)) : s'.c.noMerge = s.c.noMerge := by
  obtain ⟨A, H⟩ := reach_inv hf h
  obtain ⟨r', A', hs⟩ := step_ok S C hf H.wf H.bufs H.live hv _ H.noAdj
  obtain ⟨s2, e2, _, hn, _⟩ := hs _ H rfl hr
  rw [e] at e2
  obtain ⟨rfl, _⟩ := Prod.mk.inj (Outcome.ok.inj e2)
  exact hn

theorem run_reach {S : Source σ} {C : Config} {pb : Nat} (hf : C.reallocFactor ≠ 0) {s s' : CS σ} {L L' : List Block}
    {B B' : List (Nat × Nat)} {ops : List Op} {rs : List Nat} (h : Reach S C pb s L B)
    (R : Run S C pb s L B ops rs s' L' B') :
    Reach S C pb s' L' B' ∧ s'.c.noMerge = s.c.noMerge ∧ ∀ y ∈ B, y ∈ B' := by
  induction R with
  | nil => exact ⟨h, rfl, fun y hy => hy⟩
  | @cons s s1 s2 L L2 B B2 op ops r rs hv hreg e _ ih =>
    obtain ⟨i1, i2, i3⟩ := ih (h.step hv hreg e)
    refine ⟨i1, i2.trans (exec_noMerge hf h hv hreg e), fun y hy => i3 y ?_⟩
    cases op <;> simp [accountBufs, hy]

/-- C77: after any calls that do not free or resize one of the blocks of the start, once all blocks obtained since have
been freed, the chunks are the same as before. -/
theorem C77_no_trace {S : Source σ} {C : Config} {pb : Nat} (hf : C.reallocFactor ≠ 0) {s s' : CS σ} {L L' : List Block}
    {B B' : List (Nat × Nat)} {ops : List Op} {rs : List Nat} (h : Reach S C pb s L B) (hm : s.c.noMerge = false)
    (R : Run S C pb s L B ops rs s' L' B') (hno : ∀ op ∈ ops, ∀ l ∈ L, op.target ≠ l.ptr)
    (hfreed : ∀ l' ∈ L', ∃ l ∈ L, l.ptr = l'.ptr) : SameChunks B s.w.mem s'.w.mem := by
  obtain ⟨h', hm', hB⟩ := run_reach hf h R
  obtain ⟨A, H⟩ := reach_inv hf h
  obtain ⟨A', H'⟩ := reach_inv hf h'
  -- the used chunks of the two states
  have hsame : ∀ c c' : Ck, A.Used c → A'.Used c' → c.uptr = c'.uptr → c.addr = c'.addr ∧ c.size = c'.size := by
    intro c c' hc hc' hp
    obtain ⟨l, hl, hlp⟩ := H.live.all c hc
    obtain ⟨⟨_, q1⟩, _, q2⟩ := run_used hf h hl R (fun op ho => hno op ho l hl)
    have a1 : getChunkUnpadded s.w.mem c.uptr = _ := (getChunkUnpadded_used H.wf H.inv.mem hc).1
    have a2 : getChunkUnpadded s'.w.mem c'.uptr = _ := (getChunkUnpadded_used H'.wf H'.inv.mem hc').1
    have a3 := H.usable hc
    have a4 := H'.usable hc'
    rw [hlp] at q1 q2
    rw [← hp, q1, a1] at a2
    rw [← hp, q2, a3] at a4
    have b1 := Outcome.ok.inj a2
    have b2 := Outcome.ok.inj a4
    have := H.wf.uptr_le hc.1
    have := H'.wf.uptr_le hc'.1
    omega
  intro y hy l
  obtain ⟨g, hg, e1, e2, hch⟩ := H.seg hy
  obtain ⟨g', hg', e1', e2', hch'⟩ := H'.seg (hB y hy)
  have hgw := H.wf.seg g hg
  have hgw' := H'.wf.seg g' hg'
  have key : g.chunks.map Ck.view = g'.chunks.map Ck.view := by
    refine C77_canonical hf hf h h' hm (hm'.trans hm) hy (hB y hy) hch hch' (fun a z => ?_)
    constructor
    · intro hmem
      obtain ⟨c, hcg, hv⟩ := List.mem_map.1 hmem
      simp only [Ck.view, Prod.mk.injEq, decide_eq_false_iff_not] at hv
      have hc : A.Used c := (AHeap.has_used_or_free H.wf ⟨g, hg, hcg⟩).resolve_right hv.2.2
      obtain ⟨k, hk, hkp⟩ := H.live.all c hc
      obtain ⟨_, hk', _⟩ := run_used hf h hk R (fun op ho => hno op ho k hk)
      obtain ⟨c', hc', hp', _⟩ := H'.live.used k hk'
      obtain ⟨f1, f2⟩ := hsame c c' hc hc' (by rw [hp', hkp])
      obtain ⟨g2, hg2, hcg2⟩ := hc'.1
      have hb := hgw.bounds hcg
      have hb2 := (H'.wf.seg g2 hg2).bounds hcg2
      have hw2 := (H'.wf.has_wf hc'.1).ge
      have : g2 = g' := by
        by_contra hne
        have := H'.wf.seg_disj hg2 hg' hne
        omega
      subst this
      refine List.mem_map.2 ⟨c', hcg2, ?_⟩
      obtain ⟨p, hp⟩ := hc'.2
      simp [Ck.view, hp, ← f1, ← f2, hv.1, hv.2.1]
    · intro hmem
      obtain ⟨c', hcg', hv⟩ := List.mem_map.1 hmem
      simp only [Ck.view, Prod.mk.injEq, decide_eq_false_iff_not] at hv
      have hc' : A'.Used c' := (AHeap.has_used_or_free H'.wf ⟨g', hg', hcg'⟩).resolve_right hv.2.2
      obtain ⟨k', hk', hkp'⟩ := H'.live.all c' hc'
      obtain ⟨k, hk, hkk⟩ := hfreed k' hk'
      obtain ⟨c, hc, hp, _⟩ := H.live.used k hk
      obtain ⟨f1, f2⟩ := hsame c c' hc hc' (by rw [hp, hkk, hkp'])
      obtain ⟨g2, hg2, hcg2⟩ := hc.1
      have hb := hgw'.bounds hcg'
      have hb2 := (H.wf.seg g2 hg2).bounds hcg2
      have hw2 := (H.wf.has_wf hc.1).ge
      have : g2 = g := by
        by_contra hne
        have := H.wf.seg_disj hg2 hg hne
        omega
      subst this
      refine List.mem_map.2 ⟨c, hcg2, ?_⟩
      obtain ⟨p, hp⟩ := hc.2
      simp [Ck.view, hp, f1, f2, hv.1, hv.2.1]
  constructor
  · intro hl
    rw [Chunks.unique hl hch, key]
    exact hch'
  · intro hl
    rw [Chunks.unique hl hch', ← key]
    exact hch

theorem HInv.same_free {pb pb' : Nat} {s : CS σ} {t : CS τ} {L L' : List Block} {B : List (Nat × Nat)} {A A' : AHeap}
    (H : HInv pb s L B A) (H' : HInv pb' t L' B A') (hs : SameChunks B s.w.mem t.w.mem) {c : Ck} (hc : A.Has c)
    (hfree : c.st = .free) : A'.Has c := by
  obtain ⟨g, hg, hcg⟩ := hc
  have hy := H.segOf hg
  have hch := (hs _ hy _).1 (H.chunksOf hg)
  have := H'.hasOf hy hch (a := c.addr) (sz := c.size) (List.mem_map.2 ⟨c, hcg, by simp [Ck.view, hfree]⟩)
  rw [← hfree] at this
  exact this

theorem success_of {S : Source σ} {S' : Source τ} {pb pb' : Nat} {s s' : CS σ} {t t' : CS τ}
    {L L' : List Block} {B : List (Nat × Nat)} {A A' : AHeap} {b n r : Nat} (H : HInv pb s L B A) (H' : HInv pb' t L' B A')
    (hs : SameChunks B s.w.mem t.w.mem) (hb : GoodBound b) (hn : n ≠ 0)
    (hsz : SizeOK B b n) (e : allocAlign S s b n = .ok (s', r)) (e' : allocAlign S' t b n = .ok (t', 0)) :
    r = 0 := by
  by_contra hr
  obtain ⟨A1, hA, _⟩ := H.alloc S hb hsz e
  obtain ⟨A2, hA', _⟩ := H'.alloc S' hb hsz e'
  rcases hA with ⟨h0, _⟩ | ⟨c, d, G, rfl, _⟩
  · exact hr h0
  rcases hA' with ⟨_, _, hno⟩ | ⟨_, _, _, _, hne⟩
  · have h1 := hno hn c (H.same_free H' hs G.has G.free) G.free G.small
    have := G.min
    have := G.le
    omega
  · exact hne rfl

/-- C77: whether an allocation succeeds depends only on the chunks. -/
theorem C77_success {S : Source σ} {S' : Source τ} {C C' : Config} {pb pb' : Nat} {s s' : CS σ} {t t' : CS τ}
    {L L' : List Block} {B : List (Nat × Nat)} {b n r r' : Nat} (hf : C.reallocFactor ≠ 0) (hf' : C'.reallocFactor ≠ 0)
    (h : Reach S C pb s L B) (h' : Reach S' C' pb' t L' B) (hs : SameChunks B s.w.mem t.w.mem) (hb : GoodBound b)
    (hsz : SizeOK B b n) (e : allocAlign S s b n = .ok (s', r)) (e' : allocAlign S' t b n = .ok (t', r')) :
    r = 0 ↔ r' = 0 := by
  obtain ⟨A, H⟩ := reach_inv hf h
  obtain ⟨A', H'⟩ := reach_inv hf' h'
  by_cases hn : n = 0
  · subst hn
    unfold allocAlign at e e'
    rw [if_neg (by simp [H.inv.dead]), if_pos rfl] at e
    rw [if_neg (by simp [H'.inv.dead]), if_pos rfl] at e'
    rw [← (Prod.mk.inj (Outcome.ok.inj e)).2, ← (Prod.mk.inj (Outcome.ok.inj e')).2]
  constructor
  · rintro rfl
    exact success_of H' H (fun y hy l => (hs y hy l).symm) hb hn hsz e' e
  · rintro rfl
    exact success_of H H' hs hb hn hsz e e'

/-- C77: a call that allocates after such a run succeeds exactly if it would have succeeded before it (no buffer was added). -/
theorem C77_same_service {S : Source σ} {C : Config} {pb : Nat} (hf : C.reallocFactor ≠ 0) {s s' s1 s2 : CS σ} {L L' : List Block}
    {B : List (Nat × Nat)} {ops : List Op} {rs : List Nat} {b n r r' : Nat} (h : Reach S C pb s L B)
    (hm : s.c.noMerge = false) (R : Run S C pb s L B ops rs s' L' B) (hno : ∀ op ∈ ops, ∀ l ∈ L, op.target ≠ l.ptr)
    (hfreed : ∀ l' ∈ L', ∃ l ∈ L, l.ptr = l'.ptr) (hb : GoodBound b) (hsz : SizeOK B b n)
    (e : allocAlign S s b n = .ok (s1, r)) (e' : allocAlign S s' b n = .ok (s2, r')) : r = 0 ↔ r' = 0 :=
  C77_success hf hf h (run_reach hf h R).1 (C77_no_trace hf h hm R hno hfreed) hb hsz e e'

/-- A chain over one buffer, without merging. -/
theorem fresh_unmerged {X sz : Nat} (h : SampleBuf X sz) :
    ∃ (s : CS Unit) (A : AHeap), Reach S0 Config.default 4096 s [] [(X, sz)] ∧ s.c.noMerge = true ∧
      HInv 4096 s [] [(X, sz)] A ∧ A.Has ⟨X + 32, sz - 48, .free⟩ := by
  obtain ⟨s, e, H⟩ := init_inv (addr := 4096) (pb := 4096) w0 true true true (by omega) (by omega) w0_regs
  have hnm : s.c.noMerge = true ∧ s.c.noRegion = true := by
    obtain ⟨s', e', _, _, _, _, _, g1, g2, _⟩ := chainBaseInit_ok w0 (addr := 4096) (pb := 4096) true true true
      (by omega) (by omega)
    unfold userInit at e
    rw [e', Outcome.ok_bind, if_neg (by simp), Outcome.pure_eq, Outcome.ok_bind] at e
    cases e
    exact ⟨g1, g2⟩
  have R0 : Reach S0 Config.default 4096 s [] [] := .init (by omega) (by omega) w0_regs e
  have hv : ValidOp 4096 [] [] (.refill X sz) := by
    have := h.lo; have := h.dvdX; have := h.dvdS; have := h.ge; have := h.lt; have := h.hi
    refine ⟨by omega, by assumption, by assumption, by omega, by omega, by omega, by omega, by simp⟩
  have hr : RegOK s (.refill X sz) := by
    intro h; rw [hnm.2] at h; cases h
  have F := freshSeg_of H.bufs hv
  obtain ⟨A', R, hs⟩ := refill_ok (σ := Unit) H.wf F
  obtain ⟨h', Rg, e1, M1, _⟩ := hs s H.inv (fun h => by rw [hnm.2] at h; cases h)
  have e2 : exec S0 Config.default s (.refill X sz) = .ok (refilled s h' Rg X sz, 0) := by
    rw [exec_refill, e1]; rfl
  have R1 : Reach S0 Config.default 4096 (refilled s h' Rg X sz) [] [(X, sz)] := by
    simpa [account, accountBufs] using R0.step hv hr e2
  obtain ⟨A2, H2⟩ := reach_inv default_factor R1
  refine ⟨_, A2, R1, hnm.1, H2, ?_⟩
  obtain ⟨g, hg, hcg⟩ := R.has
  have hsh : (g.base, g.size) = (X, sz) := by
    have : (g.base, g.size) ∈ A'.shape := List.mem_map.2 ⟨g, hg, rfl⟩
    rw [R.shape, H.bufs] at this
    simpa using this
  have hw := R.wf.seg g hg
  have hm := (M1.segs g hg).chunks
  rw [Seg.ext, chunksMem_append] at hm
  have hch := chunks_of hw.tiles hm.1 hw.chunks
  obtain ⟨g1, g2⟩ := Prod.mk.inj hsh
  rw [g1, g2] at hch
  exact H2.hasOf (y := (X, sz)) (by simp) hch (List.mem_map.2 ⟨_, hcg, by simp [Ck.view]⟩)

/-- Without merging this is false: after one block of 100 bytes has come and gone, a chain over 4096 bytes does not
give 4000 bytes any more. -/
theorem C77_unmerged_refuted : ∃ (s s2 t t' : CS Unit) (p r : Nat), Reach S0 Config.default 4096 s [] [(8192, 4096)] ∧
    s.c.noMerge = true ∧
    Run S0 Config.default 4096 s [] [(8192, 4096)] [.alloc 0 100, .free p] [p, 0] s2 [] [(8192, 4096)] ∧ p ≠ 0 ∧
    allocAlign S0 s 0 4000 = .ok (t, r) ∧ r ≠ 0 ∧ allocAlign S0 s2 0 4000 = .ok (t', 0) := by
  obtain ⟨s, A, R, hnm, H, hF⟩ := fresh_unmerged sampleBuf_4096
  have hin : ∀ c, A.Has c → c = ⟨8224, 4048, .free⟩ := by
    intro c hc
    by_contra hne
    have h1 := H.wf.has_disj hc hF hne
    obtain ⟨g, hg, hcg⟩ := hc
    have hb := (H.wf.seg g hg).bounds hcg
    have hsh : (g.base, g.size) = (8192, 4096) := by
      have := H.segOf hg
      simpa using this
    obtain ⟨g1, g2⟩ := Prod.mk.inj hsh
    have := ((H.wf.seg g hg).chunks c hcg).ge
    simp only at h1
    omega
  -- the block of 4000 bytes at the start
  obtain ⟨t, _, _, d0, e0, _, hne0, _⟩ := alloc_some (b := 0) (n := 4000) default_factor R H (Or.inl (by omega)) (by omega) hF rfl
    (by simp) (by simp)
  -- the block that comes and goes
  obtain ⟨s1, A1, c, d, e1, G, hne, R1, H1, g1⟩ := alloc_some (b := 0) (n := 100) default_factor R H (Or.inl (by omega)) (by omega) hF rfl
    (by simp) (by simp)
  have hd := (G.used d).2 (Or.inr rfl)
  have hv : ValidOp 4096 [⟨d.uptr, 100, true⟩] [(8192, 4096)] (.free d.uptr) := Or.inr ⟨_, List.mem_singleton.2 rfl, rfl⟩
  obtain ⟨r2, A0, hs⟩ := step_ok S0 Config.default default_factor H1.wf H1.bufs H1.live hv _ H1.noAdj
  obtain ⟨s2, e2, _⟩ := hs s1 H1 rfl trivial
  have e2' := e2
  simp only [exec] at e2
  obtain ⟨x, h1, h2⟩ := Outcome.bind_eq_ok e2
  obtain ⟨h3, h4⟩ := Prod.mk.inj (Outcome.ok.inj h2)
  subst h3
  subst h4
  obtain ⟨A2, RF, H2, _, hmk⟩ := H1.free S0 Config.default hd h1
  have hacc2 : account [(⟨d.uptr, 100, decide (0 ≤ 1)⟩ : Block)] (.free d.uptr) 0 = [] := by simp [account]
  rw [hacc2] at H2
  have hF2 := hmk (g1.trans hnm)
  have hacc : account [] (.alloc 0 100) d.uptr = [(⟨d.uptr, 100, true⟩ : Block)] := by simp [account, hne]
  have hrun : Run S0 Config.default 4096 s [] [(8192, 4096)] [.alloc 0 100, .free d.uptr] [d.uptr, 0] x [] [(8192, 4096)] := by
    refine Run.cons ⟨Or.inl (by omega), Or.inl (by simp)⟩ trivial e1 ?_
    rw [hacc]
    refine Run.cons hv trivial e2' ?_
    have : account [(⟨d.uptr, 100, true⟩ : Block)] (.free d.uptr) 0 = [] := by simp [account]
    rw [this]
    exact Run.nil
  -- 4000 bytes afterwards
  have hv4 : ValidOp 4096 [] [(8192, 4096)] (.alloc 0 4000) := ⟨Or.inl (by omega), Or.inl (by simp)⟩
  obtain ⟨r3, A3, hs3⟩ := step_ok S0 Config.default default_factor H2.wf H2.bufs H2.live hv4 _ H2.noAdj
  obtain ⟨t', e3, _⟩ := hs3 x H2 rfl trivial
  have e3' : allocAlign S0 x 0 4000 = .ok (t', r3) := e3
  obtain ⟨A4, hA, _⟩ := H2.alloc S0 hv4.1 hv4.2 e3'
  have hr3 : r3 = 0 := by
    rcases hA with ⟨h0, _⟩ | ⟨c3, d3, G3, _, _⟩
    · exact h0
    · exfalso
      have hmin := G3.min
      have hle := G3.le
      unfold alignedSize at hmin
      rw [if_neg (by omega), calc_eq (by omega)] at hmin
      obtain ⟨g, hg, hcg⟩ := G3.has
      have hb := (H2.wf.seg g hg).bounds hcg
      have hsh : (g.base, g.size) = (8192, 4096) := by
        have := H2.segOf hg
        simpa using this
      obtain ⟨k1, k2⟩ := Prod.mk.inj hsh
      have hda : d.addr = 8224 := by rw [G.addr, hin c G.has]
      have hdm := G.min
      have hdt := G.tight
      unfold cutSize at hdt
      unfold alignedSize at hdm hdt
      rw [if_neg (by omega), calc_eq (by omega)] at hdm hdt
      by_cases hq : c3 = d.mkFree
      · have : c3.size = d.size := by rw [hq]; rfl
        omega
      · have hdis := H2.wf.has_disj G3.has hF2 hq
        have k3 : d.mkFree.addr = d.addr := rfl
        have k4 : d.mkFree.size = d.size := rfl
        rw [k3, k4] at hdis
        omega
  subst hr3
  exact ⟨s, x, t, t', d.uptr, d0.uptr, R, hnm, hrun, hne, e0, hne0, e3'⟩

/-- Met by a chain with a block of 100 bytes, in which a block of 200 bytes comes and goes. -/
example : ∃ (s s2 : CS Unit) (p q : Nat), Reach S0 Config.default 4096 s [⟨p, 100, true⟩] [(8192, 4096)] ∧
    s.c.noMerge = false ∧ Run S0 Config.default 4096 s [⟨p, 100, true⟩] [(8192, 4096)] [.alloc 0 200, .free q] [q, 0] s2
      [⟨p, 100, true⟩] [(8192, 4096)] ∧ q ≠ 0 ∧ q ≠ p ∧ SameChunks [(8192, 4096)] s.w.mem s2.w.mem := by
  obtain ⟨s0, s, A0, A, d, O⟩ := one_block (X := 8192) (sz := 4096) (b := 0) (n := 100)
    ⟨by omega, by omega, by omega, by omega, by omega, by omega⟩ (Or.inl (by omega)) (by omega) (by simp) (by omega)
  have hsz := O.size (by simp)
  simp at hsz
  obtain ⟨s2, A2, d2, e2, G2, hne, R2, H2, _⟩ := O.second (b' := 0) (n' := 200) (Or.inl (by omega)) (by omega) (by omega)
    (by simp; omega)
  have hdd : d2.uptr ≠ d.uptr := by
    have hd2 := (G2.used d2).2 (Or.inr rfl)
    have hd := (G2.used d).2 (Or.inl O.used)
    intro h
    exact G2.fresh (G2.wf.uptr_inj hd2.1 hd.1 h ▸ O.used)
  have hacc : account [(⟨d.uptr, 100, true⟩ : Block)] (.alloc 0 200) d2.uptr = [⟨d2.uptr, 200, true⟩, ⟨d.uptr, 100, true⟩] := by
    simp [account, hne]
  have hv : ValidOp 4096 [⟨d2.uptr, 200, true⟩, ⟨d.uptr, 100, true⟩] [(8192, 4096)] (.free d2.uptr) :=
    Or.inr ⟨_, List.mem_cons_self, rfl⟩
  obtain ⟨r3, A3, hs⟩ := step_ok S0 Config.default default_factor H2.wf H2.bufs H2.live hv _ H2.noAdj
  obtain ⟨s3, e3, _⟩ := hs s2 H2 rfl trivial
  have hr3 : r3 = 0 := by
    have e3' := e3
    simp only [exec] at e3'
    obtain ⟨x, _, h2⟩ := Outcome.bind_eq_ok e3'
    exact (Prod.mk.inj (Outcome.ok.inj h2)).2.symm
  subst hr3
  have hacc3 : account [(⟨d2.uptr, 200, true⟩ : Block), ⟨d.uptr, 100, true⟩] (.free d2.uptr) 0 = [⟨d.uptr, 100, true⟩] := by
    simp [account, hdd.symm]
  have hrun : Run S0 Config.default 4096 s [⟨d.uptr, 100, true⟩] [(8192, 4096)] [.alloc 0 200, .free d2.uptr] [d2.uptr, 0] s3
      [⟨d.uptr, 100, true⟩] [(8192, 4096)] := by
    refine Run.cons ⟨Or.inl (by omega), Or.inl (by simp)⟩ trivial e2 ?_
    rw [hacc]
    refine Run.cons hv trivial e3 ?_
    rw [hacc3]
    exact Run.nil
  have hge := O.inv.wf.uptr_ge d
  refine ⟨s, s3, d.uptr, d2.uptr, O.reach, O.merge, hrun, hne, hdd, C77_no_trace default_factor O.reach O.merge hrun ?_ ?_⟩
  · intro op ho l hl
    have : l.ptr = d.uptr := by
      rw [List.mem_singleton.1 hl]
    simp only [List.mem_cons, List.not_mem_nil, or_false] at ho
    rcases ho with rfl | rfl
    · simp only [Op.target]; omega
    · simp only [Op.target]; rw [this]; exact hdd
  · intro l hl
    exact ⟨l, hl, rfl⟩

end MpcAlloc
