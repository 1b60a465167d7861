import Verif.PropsChain

/-
Properties C10 to C15, C39 and C40 of a chain over user supplied buffers (see PropsChain.lean).
-/

namespace MpcAlloc

variable {σ : Type}

/-! ### C10 -/

/-- Padding below 2^63 does not give the NULL pointer, whatever the boundary. -/
theorem padAndReturn_ne_zero (s : CS σ) {a b : Nat} (ha : a + 24 < W63) (hb : b < W64) :
    (padAndReturn s (a + 15) b).2 ≠ 0 := by
  have hbody : chunkBody (a + 15) = a + 16 := chunkBody_eq (by omega)
  unfold padAndReturn
  by_cases h1 : b > 1
  · rw [if_pos h1]
    unfold setupChunkPadded
    simp only [hbody]
    split
    · rename_i h2
      simp only
      rw [add64_eq (a := a + 16) (b := 8) (by omega)]
      have hp : ∃ ptr, (if (a + 16 + 8) % b ≠ 0 then add64 (a + 16 + 8) (sub64 b ((a + 16 + 8) % b)) else a + 16 + 8) = ptr ∧
          a + 24 ≤ ptr ∧ ptr < W64 := by
        split
        · have h3 : (a + 16 + 8) % b < b := Nat.mod_lt _ (by omega)
          have h4 : (a + 16 + 8) % b ≤ a + 16 + 8 := Nat.mod_le _ _
          rw [sub64_eq (by omega) (by omega)]
          have hlt : a + 16 + 8 + (b - (a + 16 + 8) % b) < W64 := by
            by_cases hle : b ≤ a + 16 + 8
            · omega
            · rw [Nat.mod_eq_of_lt (by omega)]; omega
          rw [add64_eq hlt]
          exact ⟨_, rfl, by omega, hlt⟩
        · exact ⟨_, rfl, by omega, by omega⟩
      obtain ⟨ptr, e, hge, hlt⟩ := hp
      rw [e, sub64_eq (by omega) (by omega)]
      unfold paddedToV
      rw [add64_eq (by omega), if_neg (by omega)]
      unfold chunkBody
      rw [if_neg (by omega), add64_eq (by omega)]
      omega
    · simp only
      rw [if_neg (by omega), hbody]
      omega
  · rw [if_neg h1]
    simp only
    rw [if_neg (by omega), hbody]
    omega

/-- C10: on a chain without source (with buffers below 2^63, which is the case of every x86-64 user address), an
allocation of any size with any boundary that returns NULL changes neither memory nor chain. -/
theorem C10_failing_alloc_no_effect {S : Source σ} {C : Config} {pb : Nat} {s s' : CS σ} {L : List Block}
    {B : List (Nat × Nat)} {b n : Nat} (hf : C.reallocFactor ≠ 0) (h : Reach S C pb s L B)
    (hB : ∀ y ∈ B, y.1 + y.2 ≤ W63) (hb : b < W64) (e : allocAlign S s b n = .ok (s', 0)) : s' = s := by
  obtain ⟨A, H⟩ := reach_inv hf h
  have I := H.inv
  have hsrc := H.src
  unfold allocAlign at e
  rw [if_neg (by simp [I.dead])] at e
  by_cases hn : n = 0
  · rw [if_pos hn] at e
    exact (Prod.mk.inj (Outcome.ok.inj e)).1.symm
  rw [if_neg hn] at e
  simp only at e
  generalize (if b > 1 then add64 n b else n) = N at e
  have hh : isHuge s.c N = false := by simp [isHuge, hsrc]
  rw [hh, if_neg (by simp), lockIf_ok I.dead I.lock, Outcome.ok_bind] at e
  have hnull : allocLocked S { s with c := { s.c with lock := s.c.threadSafe } } N =
      .ok ({ s with c := { s.c with lock := s.c.threadSafe } }, 0) → s' = s := by
    intro e0
    rw [e0, Outcome.ok_bind] at e
    simp only at e
    have hu := unlockIf_ok (h := s.heap) I.dead I.lock
    have hid : ({ s with c := { s.c with lock := s.c.threadSafe } } : CS σ).setHeap s.heap =
      { s with c := { s.c with lock := s.c.threadSafe } } := rfl
    rw [hid] at hu
    rw [hu, Outcome.ok_bind, if_pos trivial, Outcome.pure_eq] at e
    rw [← (Prod.mk.inj (Outcome.ok.inj e)).1]
    rfl
  by_cases hbig : W63 ≤ calcChunkSize N
  · by_cases h42 : A.fl 42 = []
    · exact hnull (allocLocked_neg_none S H.wf hbig h42 I.pool hsrc I.mem)
    · rw [allocLocked_neg_abort S H.wf hbig h42 (s := { s with c := { s.c with lock := s.c.threadSafe } }) I.pool
        I.mem] at e
      cases e
  · obtain ⟨k, hk⟩ := searchClass_exists (calc_ge N) (by omega)
    cases hfd : A.find k (calcChunkSize N) with
    | none => exact hnull (allocLocked_none S H.wf (by omega) hk hfd I.pool hsrc I.mem)
    | some c =>
      exfalso
      obtain ⟨k1, k2, d, A1, R, hs⟩ := allocLocked_found S H.wf (by omega) hk hfd
      obtain ⟨h1, e1, M1, _⟩ := hs { s with c := { s.c with lock := s.c.threadSafe } } I.pool I.mem
      rw [e1, Outcome.ok_bind] at e
      simp only at e
      rw [unlockIf_ok I.dead I.lock, Outcome.ok_bind, if_neg (by omega), Outcome.pure_eq] at e
      obtain ⟨g, hg, hdg⟩ := R.has
      have hbd := (R.wf.seg g hg).bounds hdg
      have hsz := (R.wf.has_wf R.has).ge
      have hmem : (g.base, g.size) ∈ B := by
        rw [← H.bufs, ← R.shape]; exact List.mem_map.2 ⟨g, hg, rfl⟩
      have hBy := hB _ hmem
      simp only at hBy
      have := padAndReturn_ne_zero (s.setHeap h1) (a := d.addr) (by omega) hb
      exact this (congrArg Prod.snd (Outcome.ok.inj e))

/-- Met by a request of 5000 bytes on a chain with a buffer of 4096 bytes. -/
example : ∃ (s s' : CS Unit), Reach S0 Config.default 4096 s [] [(8192, 4096)] ∧
    allocAlign S0 s 0 5000 = .ok (s', 0) := by
  obtain ⟨s, R, hm⟩ := freed_block
  obtain ⟨A, H⟩ := reach_inv default_factor R
  have hov : ValidOp 4096 [] [(8192, 4096)] (.alloc 0 5000) := ⟨Or.inl (by omega), Or.inl (by simp)⟩
  obtain ⟨s', r, e, _⟩ := C06_valid_calls_succeed_partial default_factor R hov trivial
  have e' : allocAlign S0 s 0 5000 = .ok (s', r) := e
  obtain ⟨A', hA, _⟩ := H.alloc S0 hov.1 hov.2 e'
  rcases hA with ⟨rfl, _⟩ | ⟨c, d, G, _⟩
  · exact ⟨s, s', R, e'⟩
  · exfalso
    obtain ⟨g, hg, hcg⟩ := G.has
    rw [H.one_seg hm, List.mem_singleton] at hg
    subst hg
    simp only [List.mem_singleton] at hcg
    have h1 := G.min
    have h2 := G.le
    rw [hcg] at h2
    simp [alignedSize, calcChunkSize, add64] at h1 h2
    omega

/-! ### C11 -/

/-- C11, first half: `free(NULL)` changes nothing. -/
theorem C11_free_null (S : Source σ) (C : Config) (s : CS σ) (h : s.c.dead = false) :
    chainFree S C s 0 = .ok s := free_null S C s h

/-- C11, second half: without the strict mode, a pointer whose preceding byte does not carry the magic number
(five upper bits equal to 16) is ignored, whatever the state of chain and memory. -/
theorem C11_free_foreign (S : Source σ) (C : Config) (s : CS σ) (h : s.c.dead = false) (hs : C.strict = false)
    {p : Nat} (hp : 0 < p) (hp' : p < W64) (hm : (s.w.mem (p - 1)).toNat / 8 ≠ 16) : chainFree S C s p = .ok s := by
  unfold chainFree
  rw [if_neg (by simp [h]), if_neg (by omega)]
  have : getChunkUnpadded s.w.mem p = .ok 0 := by
    unfold getChunkUnpadded getChunk
    rw [if_neg (by omega)]
    simp only
    rw [sub64_eq (by omega) (by omega), if_pos (by unfold infoMagic MAGIC; exact hm), Outcome.ok_bind]
    rfl
  rw [this, Outcome.ok_bind, if_pos rfl, if_neg (by simp [hs])]
  rfl

example : ∃ s : CS Unit, s.c.dead = false ∧ Config.default.strict = false ∧
    (s.w.mem (20000 - 1)).toNat / 8 ≠ 16 := by
  obtain ⟨s, R, hm⟩ := freed_block
  obtain ⟨A, H⟩ := reach_inv default_factor R
  refine ⟨s.setMem (fun _ => 0), H.inv.dead, rfl, ?_⟩
  simp [CS.setMem]

/-! ### C12 -/

/-- C12, for blocks obtained without boundary whose left neighbour in the buffer is not free (or on a chain
without merging): freeing the block a second time aborts. -/
theorem C12_double_free_partial {S : Source σ} {C : Config} {pb : Nat} {s s' : CS σ} {L : List Block}
    {B : List (Nat × Nat)} (hf : C.reallocFactor ≠ 0) (h : Reach S C pb s L B) {l : Block} (hl : l ∈ L)
    (hpl : l.plain = true)
    (hleft : s.c.noMerge = true ∨ ∀ y ∈ B, ∀ ch, BufChunks s.w.mem y.1 y.2 ch → ∀ a sz, (a, sz, true) ∈ ch →
      a + sz + 16 ≠ l.ptr)
    (e : chainFree S C s l.ptr = .ok s') : chainFree S C s' l.ptr = .abort := by
  obtain ⟨A, H⟩ := reach_inv hf h
  obtain ⟨c, hc, hp, _, hn⟩ := H.live.used l hl
  rw [← hp] at e ⊢
  obtain ⟨A', R, H', _, hmk⟩ := H.free S C hc e
  have hst := hn hpl
  have hup : c.uptr = c.addr + 16 := by unfold Ck.uptr Ck.off; rw [hst]
  have hr := H.wf.has_range hc.1
  have hfree : ∃ d, A'.Has d ∧ d.st = .free ∧ d.addr = c.addr := by
    rcases hleft with hnm | hleft
    · exact ⟨c.mkFree, hmk hnm, rfl, rfl⟩
    obtain ⟨d, hd, hdf, h1, h2⟩ := R.cover
    refine ⟨d, hd, hdf, ?_⟩
    by_contra hne
    have hcw := (H.wf.has_wf hc.1).ge
    rcases R.free (c.addr - 1) ⟨d, hd, hdf, by omega, by omega⟩ with ⟨f, hfA, hff, h3, h4⟩ | h3
    · have hfc : f ≠ c := by rintro rfl; rw [hst] at hff; simp at hff
      have := H.wf.has_disj hfA hc.1 hfc
      obtain ⟨g, hg, hfg⟩ := hfA
      obtain ⟨g', hg', e1, e2, hch⟩ := H.seg (H.segOf hg)
      have hgg : g' = g := by
        by_contra hne
        have := H.wf.seg_disj hg' hg hne
        have := (H.wf.seg g hg).ge
        simp only at e1 e2
        omega
      subst hgg
      refine hleft _ (H.segOf hg) _ hch f.addr f.size (List.mem_map.2 ⟨f, hfg, ?_⟩) ?_
      · simp [Ck.view, hff]
      · omega
    · omega
  obtain ⟨d, hd, hdf, hda⟩ := hfree
  obtain ⟨q, hq⟩ := H'.inv.mem.hdr hd
  have hh := hq.hdr
  rw [hdf, hda] at hh
  unfold chainFree
  rw [if_neg (by simp [H'.inv.dead]), if_neg (by omega), hup]
  have g1 : getChunkUnpadded s'.w.mem (c.addr + 16) = .ok (c.addr + 15) :=
    getChunkUnpadded_large hh (CkSt.num_lt _) (by omega)
  rw [g1, Outcome.ok_bind, if_neg (by omega)]
  have g2 : infoState s'.w.mem (c.addr + 15) = 0 := hh.state (CkSt.num_lt _)
  rw [if_pos (by rw [g2]; decide)]

/-- Met by the first block of a buffer. -/
example : ∃ (s s' : CS Unit) (l : Block), Reach S0 Config.default 4096 s [l] [(8192, 4096)] ∧ l.plain = true ∧
    chainFree S0 Config.default s l.ptr = .ok s' ∧ chainFree S0 Config.default s' l.ptr = .abort := by
  obtain ⟨s0, s, A0, A, d, O⟩ := one_block (b := 0) (n := 100) sampleBuf_4096 (Or.inl (by omega)) (by omega)
    (by simp) (by omega)
  obtain ⟨A', R, _, hs⟩ := free_ok S0 Config.default O.inv.wf O.used s.c.noMerge
  obtain ⟨h', e', _⟩ := hs s O.inv.inv O.inv.src rfl
  refine ⟨s, _, ⟨d.uptr, 100, true⟩, O.reach, rfl, e', ?_⟩
  refine C12_double_free_partial default_factor O.reach (l := ⟨d.uptr, 100, true⟩) (by simp) rfl (Or.inr ?_) e'
  intro y hy ch hch a sz hm heq
  have hF := O.inv.hasOf hy hch hm
  obtain ⟨_, h2⟩ := (O.free rfl).1 hF
  have h3 := O.got.ptr
  have h4 := O.got.addr
  simp only [Ck.mk.injEq] at h2 h4
  rw [if_pos (Or.inl (by omega)), h4] at h3
  have := (O.inv.wf.has_wf hF).ge
  simp only at this heq
  omega

/-! ### C13 -/

/-- C13, for valid calls (enlarging a block obtained with a boundary is excluded): the first bytes are kept. -/
theorem C13_realloc_keeps_data_partial {S : Source σ} {C : Config} {pb : Nat} {s s' : CS σ} {L : List Block}
    {B : List (Nat × Nat)} {b n r : Nat} (hf : C.reallocFactor ≠ 0) (h : Reach S C pb s L B) {l : Block} (hl : l ∈ L)
    (hv : ValidOp pb L B (.realloc l.ptr b n)) (e : chainRealloc S C b s l.ptr n = .ok (s', r)) (hr : r ≠ 0) :
    ∀ i, i < min l.len n → s'.w.mem (r + i) = s.w.mem (l.ptr + i) := by
  obtain ⟨A, H⟩ := reach_inv hf h
  obtain ⟨r', A', hs⟩ := step_ok S C hf H.wf H.bufs H.live hv _ H.noAdj
  obtain ⟨s1, e1, _, _, _, _, _, _, F⟩ := hs s H rfl trivial
  rw [show exec S C s (.realloc l.ptr b n) = .ok (s', r) from e] at e1
  cases e1
  exact F.copy _ _ _ rfl hr l hl rfl

/-- C13 for every live block, also those obtained with a boundary: a realloc that returns either keeps the block in
place and changes nothing, or moves its contents into a new block, as an allocation, stores of the client and a free
would. -/
theorem C13_any_block_partial {S : Source σ} {C : Config} {pb : Nat} {s s' : CS σ} {L : List Block}
    {B : List (Nat × Nat)} {b n r : Nat} (hf : C.reallocFactor ≠ 0) (h : Reach S C pb s L B) {l : Block} (hl : l ∈ L)
    (hb : GoodBound b) (hsz : SizeOK B b n) (hn : n ≠ 0) (e : chainRealloc S C b s l.ptr n = .ok (s', r)) (hr : r ≠ 0) :
    (r = l.ptr ∧ s' = s) ∨ (r ≠ l.ptr ∧
      Reach S C pb s' (⟨r, n, decide (b ≤ 1)⟩ :: L.filter (fun k => decide (k.ptr ≠ l.ptr))) B ∧
      ∀ i, i < min l.len n → s'.w.mem (r + i) = s.w.mem (l.ptr + i)) := by
  obtain ⟨A, H⟩ := reach_inv hf h
  obtain ⟨c, hc, h1, h2, _⟩ := H.live.used l hl
  have hu := H.wf.uptr_ge c
  have hge := (H.wf.has_wf hc.1).ge
  have hra := H.wf.has_range hc.1
  obtain ⟨v, g1, g2, g3⟩ := getChunk_used H.wf H.inv.mem hc
  have g1' : getChunk s.w.mem l.ptr = .ok v := by rw [← h1]; exact g1
  have g3' : getUnpaddedSize s.w.mem v = .ok c.size := g3
  unfold chainRealloc at e
  rw [if_neg (by omega), if_neg (by omega), if_neg hn, g1', Outcome.ok_bind, if_pos g2, g3', Outcome.ok_bind] at e
  simp only at e
  rw [sub64_eq (by omega) (by omega), if_neg (by omega)] at e
  split at e
  · cases e; exact Or.inl ⟨rfl, rfl⟩
  right
  obtain ⟨⟨s1, r1⟩, e1, e⟩ := Outcome.bind_eq_ok e
  simp only at e
  obtain ⟨s2, e2, e⟩ := Outcome.bind_eq_ok e
  obtain ⟨s3, e3, e⟩ := Outcome.bind_eq_ok e
  simp only [Outcome.pure_eq, Outcome.ok.injEq, Prod.mk.injEq] at e
  obtain ⟨rfl, rfl⟩ := e
  rw [if_pos hr] at e2
  obtain ⟨m2, ec, e4⟩ := Outcome.bind_eq_ok e2
  clear e2
  simp only [Outcome.pure_eq, Outcome.ok.injEq] at e4
  subst e4
  have R1 := h.step (op := .alloc b n) ⟨hb, hsz⟩ trivial e1
  simp only [account, if_neg hr, accountBufs] at R1
  obtain ⟨A1, H1⟩ := reach_inv hf R1
  have hne : r1 ≠ l.ptr := by
    intro he
    have := H1.live.nodup
    rw [List.map_cons, List.nodup_cons] at this
    exact this.1 (List.mem_map.2 ⟨l, hl, he.symm⟩)
  generalize hK : (if c.size - 16 < n then c.size - 16 else n) = K at ec
  have hKn : K ≤ n := by rw [← hK]; split <;> omega
  have hKl : min l.len n ≤ K := by rw [← hK]; split <;> omega
  have hcp : (∀ i, i < K → m2 (r1 + i) = s1.w.mem (l.ptr + i)) ∧ ∀ x, x < r1 ∨ r1 + K ≤ x → m2 x = s1.w.mem x := by
    unfold memCopy at ec
    split at ec
    · rename_i hd
      injection ec with ec
      subst ec
      refine ⟨fun i hi => ?_, fun x hx => ?_⟩
      · beta_reduce
        rw [if_pos (by omega)]
        congr 1
        omega
      · beta_reduce
        rw [if_neg (by omega)]
    · cases ec
  have R2 := R1.fill (l := ⟨r1, n, decide (b ≤ 1)⟩) List.mem_cons_self (m := m2)
    (fun x hx => hcp.2 x (by unfold Block.Byte at hx; simp only at hx; omega))
  have hv : ValidOp pb (⟨r1, n, decide (b ≤ 1)⟩ :: L) B (.free l.ptr) := Or.inr ⟨l, List.mem_cons_of_mem _ hl, rfl⟩
  have e5 : exec S C (s1.setMem m2) (.free l.ptr) = .ok (s3, 0) := by rw [exec_free, e3]; rfl
  have R3 := R2.step hv trivial e5
  have hacc : account (⟨r1, n, decide (b ≤ 1)⟩ :: L) (.free l.ptr) 0 =
      ⟨r1, n, decide (b ≤ 1)⟩ :: L.filter (fun k => decide (k.ptr ≠ l.ptr)) := by
    simp [account, hne]
  rw [hacc] at R3
  refine ⟨hne, R3, fun i hi => ?_⟩
  have k1 := (C04_live_data_kept_partial hf R2 hv trivial e5).1 (by simp) ⟨r1, n, decide (b ≤ 1)⟩ List.mem_cons_self
    ⟨⟨r1, n, decide (b ≤ 1)⟩, by rw [hacc]; exact List.mem_cons_self, rfl⟩ (r1 + i)
    (by unfold Block.Byte; simp only; omega)
  have k2 := (C04_live_data_kept_partial hf h (op := .alloc b n) ⟨hb, hsz⟩ trivial e1).1 (by simp) l hl
    ⟨l, by simp only [account, if_neg hr]; exact List.mem_cons_of_mem _ hl, rfl⟩ (l.ptr + i)
    (by unfold Block.Byte; omega)
  exact k1.trans ((hcp.1 i (by omega)).trans k2)

/-- Met by a block of 32 bytes obtained with the boundary 64, which moves when it is made larger. -/
example : ∃ (s s' : CS Unit) (l : Block) (r : Nat), Reach S0 Config.default 4096 s [l] [(8192, 4096)] ∧
    l.plain = false ∧ l.len = 32 ∧ chainRealloc S0 Config.default 0 s l.ptr 1000 = .ok (s', r) ∧ r ≠ 0 ∧ r ≠ l.ptr := by
  obtain ⟨s0, s, A0, A, d, O⟩ := one_block (b := 64) (n := 32) sampleBuf_4096 (Or.inr ⟨6, rfl⟩) (by omega)
    (by simp) (by omega)
  have hs := O.size (by simp)
  have hle := O.got.le
  have hp := O.got.ptr
  have ha := O.got.addr
  simp at hs hle ha
  rw [ha] at hp
  have hp' : d.uptr = 8256 := by rw [hp]; decide
  obtain ⟨s', A', d', e', G, hne, R', H', g1⟩ := O.second (b' := 0) (n' := 1000) (Or.inl (by omega)) (by omega)
    (by omega) (by simp; omega)
  have ha' := G.addr
  have hq := G.ptr
  rw [if_pos (Or.inl (by omega))] at hq
  simp only at ha'
  obtain ⟨v, h1, h2, h3⟩ := getChunk_used O.inv.wf O.inv.inv.mem O.used
  have h1' : getChunk s.w.mem d.uptr = .ok v := h1
  have h3' : getUnpaddedSize s.w.mem v = .ok d.size := h3
  obtain ⟨m2, e2, _, f2⟩ := memCopy_ok (m := s'.w.mem) (dst := d'.uptr) (src := d.uptr) (n := d.size - 16) (by omega)
  have R2 := R'.fill List.mem_cons_self (m := m2) (fun x hx => f2 x (by unfold Block.Byte at hx; simp only at hx; omega))
  obtain ⟨A2, H2⟩ := reach_inv default_factor R2
  have hv : ValidOp 4096 [⟨d'.uptr, 1000, decide (0 ≤ 1)⟩, ⟨d.uptr, 32, decide (64 ≤ 1)⟩] [(8192, 4096)] (.free d.uptr) :=
    Or.inr ⟨⟨d.uptr, 32, decide (64 ≤ 1)⟩, by simp, rfl⟩
  obtain ⟨r, A3, hs3⟩ := step_ok S0 Config.default default_factor H2.wf H2.bufs H2.live hv _ H2.noAdj
  obtain ⟨s3, e3, _⟩ := hs3 _ H2 rfl trivial
  rw [exec_free] at e3
  obtain ⟨s4, e3, _⟩ := Outcome.bind_eq_ok e3
  refine ⟨s, s4, _, d'.uptr, O.reach, rfl, rfl, ?_, hne, by simp only; omega⟩
  unfold chainRealloc
  simp only
  rw [if_neg (by omega), if_neg (by omega), if_neg (by omega), h1', Outcome.ok_bind, if_pos h2, h3', Outcome.ok_bind]
  rw [sub64_eq (by omega) (by omega), if_neg (by simp [Config.default]), if_neg (by omega),
    show chainAlloc S0 0 s 1000 = .ok (s', d'.uptr) from e', Outcome.ok_bind]
  simp only
  rw [if_pos hne, if_pos (by omega), e2, Outcome.ok_bind, Outcome.pure_eq, Outcome.ok_bind, e3]
  rfl

/-! ### C14 -/

/-- Live blocks after a successful realloc of a live block. -/
theorem account_realloc {L : List Block} {l : Block} (hl : l ∈ L) {b n r : Nat} (hp : l.ptr ≠ 0) (hr : r ≠ 0) :
    (∃ k ∈ account L (.realloc l.ptr b n) r, k.ptr = r ∧ k.len = n) ∧
      ∀ k ∈ L, k.ptr ≠ l.ptr → k ∈ account L (.realloc l.ptr b n) r := by
  simp only [account, if_neg hp, if_neg hr]
  by_cases h : r = l.ptr
  · simp only [if_pos h]
    refine ⟨⟨{ l with len := n }, List.mem_map.2 ⟨l, hl, by simp⟩, h.symm, rfl⟩, ?_⟩
    intro k hk hne
    exact List.mem_map.2 ⟨k, hk, by simp [hne]⟩
  · simp only [if_neg h]
    refine ⟨⟨_, List.mem_cons_self, rfl, rfl⟩, ?_⟩
    intro k hk hne
    exact List.mem_cons_of_mem _ (List.mem_filter.2 ⟨hk, by simpa using hne⟩)

/-- C14, for valid calls: after a successful realloc the block of `n` bytes at the result is live, it is inside
one buffer and disjoint from the other live blocks, which stay live. -/
theorem C14_realloc_size_partial {S : Source σ} {C : Config} {pb : Nat} {s s' : CS σ} {L : List Block}
    {B : List (Nat × Nat)} {b n r : Nat} (hf : C.reallocFactor ≠ 0) (h : Reach S C pb s L B) {l : Block} (hl : l ∈ L)
    (hv : ValidOp pb L B (.realloc l.ptr b n)) (e : chainRealloc S C b s l.ptr n = .ok (s', r)) (hr : r ≠ 0) :
    ∃ L', Reach S C pb s' L' B ∧ (∃ k ∈ L', k.ptr = r ∧ k.len = n) ∧ (∀ k ∈ L, k.ptr ≠ l.ptr → k ∈ L') ∧
      (∃ y ∈ B, y.1 ≤ r ∧ r + n ≤ y.1 + y.2) ∧
      ∀ k ∈ L, k.ptr ≠ l.ptr → ∀ x, r ≤ x → x < r + n → ¬ k.Byte x := by
  have R' := h.step hv trivial (show exec S C s (.realloc l.ptr b n) = .ok (s', r) from e)
  obtain ⟨A, H⟩ := reach_inv hf h
  obtain ⟨A', H'⟩ := reach_inv hf R'
  obtain ⟨c, hc, hp, _⟩ := H.live.used l hl
  have hge := H.wf.uptr_ge c
  obtain ⟨⟨k, hk, hkr, hkn⟩, hoth⟩ := account_realloc (b := b) (n := n) hl (by omega) hr
  refine ⟨_, R', ⟨k, hk, hkr, hkn⟩, hoth, ?_, ?_⟩
  · obtain ⟨⟨y, hy, h1, h2⟩, _⟩ := C02_inside_buffers_partial hf R' hk
    exact ⟨y, hy, by omega, by omega⟩
  · intro j hj hjne x h1 h2 hx
    have hjm := hoth j hj hjne
    have hjr : j.ptr ≠ r := by
      intro hjr
      by_cases h : r = l.ptr
      · omega
      · have hnd := H'.live.nodup
        simp only [account, if_neg (show l.ptr ≠ 0 by omega), if_neg hr, if_neg h, List.map_cons,
          List.nodup_cons] at hnd
        exact hnd.1 (List.mem_map.2 ⟨j, List.mem_filter.2 ⟨hj, by simpa using hjne⟩, hjr⟩)
    have := pairwise_mem (R := Block.Disj) (fun a b h x hx => h x hx.symm)
      (C01_live_blocks_disjoint_partial hf R') hjm hk (by rintro rfl; exact hjr hkr)
    exact this x ⟨hx, by omega, by omega⟩

/-- Met by enlarging the block of 100 bytes of a chain with two blocks (C13 and C14). -/
example : ∃ (s s' : CS Unit) (L : List Block) (l : Block) (r : Nat),
    Reach S0 Config.default 4096 s L [(8192, 4096)] ∧ l ∈ L ∧ l.len = 100 ∧
    ValidOp 4096 L [(8192, 4096)] (.realloc l.ptr 0 1000) ∧
    chainRealloc S0 Config.default 0 s l.ptr 1000 = .ok (s', r) ∧ r ≠ 0 := by
  obtain ⟨s0, s, A0, A, d, O⟩ := one_block (b := 0) (n := 100) sampleBuf_4096 (Or.inl (by omega)) (by omega)
    (by simp) (by omega)
  have hsz := O.size (by simp)
  simp only [Nat.not_lt_zero, if_false] at hsz
  have hst := O.got.noPad (by omega)
  have hge := (O.inv.wf.has_wf O.used.1).ge
  obtain ⟨r, A', hR, _, _, _, hs⟩ := realloc_ok S0 Config.default (hook := 0) (n := 1000) O.inv.wf O.used
    (Or.inl (by omega)) (by omega) (Or.inl (by simp [alignedSize])) default_factor
    (reallocSafe_unpadded _ hst (by omega)) s.c.noMerge
  obtain ⟨h', e, _⟩ := hs s O.inv.inv O.inv.src rfl
  refine ⟨s, _, _, ⟨d.uptr, 100, true⟩, r, O.reach, List.mem_cons_self, rfl, ?_, e, ?_⟩
  · exact ⟨Or.inl (by omega), Or.inl (by simp), Or.inr ⟨_, List.mem_cons_self, rfl, Or.inr (Or.inl rfl)⟩⟩
  · cases hR with
    | keep _ => have := O.inv.wf.uptr_ge d; omega
    | fail _ hno _ =>
      have := hno _ ((O.free rfl).2 ⟨by omega, rfl⟩) rfl (by simp only; omega)
      simp [alignedSize, calcChunkSize, add64] at this
      omega
    | move _ _ _ hne => exact hne

/-! ### C15 -/

/-- C15, what remains true: when a valid realloc returns NULL, every other live block stays live and unmodified.
(The old block itself is lost, see `C15_refuted`.) -/
theorem C15_other_blocks_kept_partial {S : Source σ} {C : Config} {pb : Nat} {s s' : CS σ} {L : List Block}
    {B : List (Nat × Nat)} {b n : Nat} (hf : C.reallocFactor ≠ 0) (h : Reach S C pb s L B) {l : Block} (hl : l ∈ L)
    (hv : ValidOp pb L B (.realloc l.ptr b n)) (e : chainRealloc S C b s l.ptr n = .ok (s', 0)) :
    ∃ L', Reach S C pb s' L' B ∧ ∀ k ∈ L, k.ptr ≠ l.ptr → k ∈ L' ∧ ∀ x, k.Byte x → s'.w.mem x = s.w.mem x := by
  have e' : exec S C s (.realloc l.ptr b n) = .ok (s', 0) := e
  have R' := h.step hv trivial e'
  obtain ⟨A, H⟩ := reach_inv hf h
  obtain ⟨c, hc, hp, _⟩ := H.live.used l hl
  have hge := H.wf.uptr_ge c
  have hk : ∀ k ∈ L, k.ptr ≠ l.ptr → k ∈ account L (.realloc l.ptr b n) 0 := by
    intro k hk hne
    simp only [account, if_neg (show l.ptr ≠ 0 by omega), if_true]
    exact List.mem_filter.2 ⟨hk, by simpa using hne⟩
  refine ⟨_, R', fun k hkL hne => ⟨hk k hkL hne, ?_⟩⟩
  exact (C04_live_data_kept_partial hf h hv trivial e').1 (by simp) k hkL ⟨k, hk k hkL hne, rfl⟩

/-! ### C39 -/

/-- C39: the size computed from the pointer of a live block is the distance to the end of the used chunk that
contains it, and at least the requested size. -/
theorem C39_usable_size {S : Source σ} {C : Config} {pb : Nat} {s : CS σ} {L : List Block}
    {B : List (Nat × Nat)} (hf : C.reallocFactor ≠ 0) (h : Reach S C pb s L B) {l : Block} (hl : l ∈ L) :
    ∃ k, posixGetSize s.w.mem l.ptr = .ok k ∧ l.len ≤ k ∧
      ∃ y ∈ B, ∃ ch, BufChunks s.w.mem y.1 y.2 ch ∧ ∃ a sz, (a, sz, false) ∈ ch ∧ a + 16 ≤ l.ptr ∧
        l.ptr + k = a + sz := by
  obtain ⟨A, H⟩ := reach_inv hf h
  obtain ⟨c, hc, hp, hfit, _⟩ := H.live.used l hl
  have hge := H.wf.uptr_ge c
  have hle := H.wf.uptr_le hc.1
  have hr := H.wf.has_range hc.1
  have hsz := (H.wf.has_wf hc.1).ge
  obtain ⟨g1, g2, g3⟩ := getChunkUnpadded_used H.wf H.inv.mem hc
  have g1' : getChunkUnpadded s.w.mem l.ptr = .ok (c.addr + 15) := by rw [← hp]; exact g1
  have g3' : hSize s.w.mem (vLarge (c.addr + 15)) = c.size := g3
  refine ⟨c.addr + c.size - l.ptr, ?_, by omega, ?_⟩
  · unfold posixGetSize
    rw [if_neg (by omega), g1', Outcome.ok_bind, if_neg (by omega), Outcome.pure_eq]
    unfold getUsableSize
    rw [g3', sub64_eq (a := l.ptr) (by omega) (by omega), sub64_eq (a := c.size) (by omega) (by omega)]
    congr 1
    unfold sub64 add64
    omega
  · obtain ⟨g, hg, hcg⟩ := hc.1
    obtain ⟨g', hg', e1, e2, hch⟩ := H.seg (H.segOf hg)
    have hgg : g' = g := by
      by_contra hne
      have := H.wf.seg_disj hg' hg hne
      have := (H.wf.seg g hg).ge
      simp only at e1 e2
      omega
    subst hgg
    refine ⟨_, H.segOf hg, _, hch, c.addr, c.size, List.mem_map.2 ⟨c, hcg, ?_⟩, by omega, by omega⟩
    obtain ⟨p, hp⟩ := hc.2
    simp [Ck.view, hp]

/-- Met by an aligned and an unaligned block. -/
example : ∃ (s : CS Unit) (p q k k' : Nat),
    Reach S0 Config.default 4096 s [⟨q, 200, false⟩, ⟨p, 100, true⟩] [(8192, 4096)] ∧
    posixGetSize s.w.mem q = .ok k ∧ 200 ≤ k ∧ posixGetSize s.w.mem p = .ok k' ∧ 100 ≤ k' := by
  obtain ⟨s, p, q, _, _, R, _⟩ := two_blocks
  obtain ⟨k, h1, h2, _⟩ := C39_usable_size default_factor R (l := ⟨q, 200, false⟩) (by simp)
  obtain ⟨k', h3, h4, _⟩ := C39_usable_size default_factor R (l := ⟨p, 100, true⟩) (by simp)
  exact ⟨s, p, q, k, k', R, h1, h2, h3, h4⟩

/-! ### C40 -/

/-- C40: after freeing a block, an allocation of at most its size succeeds, if the buffers have at most 2 MB (plus
48 bytes of headers). -/
theorem C40_freed_block_reusable {S : Source σ} {C : Config} {pb : Nat} {s s1 s2 : CS σ} {L : List Block}
    {B : List (Nat × Nat)} {b n r : Nat} (hf : C.reallocFactor ≠ 0) (h : Reach S C pb s L B)
    (hB : ∀ y ∈ B, y.2 ≤ MB2 + 48) {l : Block} (hl : l ∈ L) (hb : b ≤ 1) (hn : n ≠ 0) (hle : n ≤ l.len)
    (e1 : chainFree S C s l.ptr = .ok s1) (e2 : allocAlign S s1 b n = .ok (s2, r)) : r ≠ 0 := by
  obtain ⟨A, H⟩ := reach_inv hf h
  obtain ⟨c, hc, hp, hfit, _⟩ := H.live.used l hl
  have hge := H.wf.uptr_ge c
  have hr := H.wf.has_range hc.1
  rw [← hp] at e1
  obtain ⟨A1, R, H1, _⟩ := H.free S C hc e1
  obtain ⟨A2, hA, _⟩ := H1.alloc S (Or.inl hb) (Or.inl (by rw [if_neg (by omega)]; omega)) e2
  rcases hA with ⟨_, _, hno⟩ | ⟨_, _, _, _, hne⟩
  · exfalso
    obtain ⟨d, hd, hdf, h1, h2⟩ := R.cover
    obtain ⟨g, hg, hdg⟩ := hd
    have hbd := (H1.wf.seg g hg).bounds hdg
    have hgB := hB _ (H1.segOf hg)
    have hgg := (H1.wf.seg g hg).ge
    have hdw := (H1.wf.has_wf ⟨g, hg, hdg⟩).ge
    simp only at hgB
    have := hno hn d ⟨g, hg, hdg⟩ hdf (by omega)
    have hal : alignedSize b n = n := by unfold alignedSize; rw [if_neg (by omega)]
    have hcw := (H.wf.has_wf hc.1).ge
    rw [hal, calc_eq (by omega)] at this
    omega
  · exact hne

/-- Met by a live block of 100 bytes. -/
example : ∃ (s s1 s2 : CS Unit) (L : List Block) (l : Block) (r : Nat),
    Reach S0 Config.default 4096 s L [(8192, 4096)] ∧ l ∈ L ∧ l.len = 100 ∧
    chainFree S0 Config.default s l.ptr = .ok s1 ∧ allocAlign S0 s1 0 100 = .ok (s2, r) := by
  obtain ⟨s, p, q, _, _, R, _⟩ := two_blocks
  have hov : ValidOp 4096 [⟨q, 200, false⟩, ⟨p, 100, true⟩] [(8192, 4096)] (.free p) :=
    Or.inr ⟨⟨p, 100, true⟩, by simp, rfl⟩
  obtain ⟨s1, r1, e1, _⟩ := C06_valid_calls_succeed_partial default_factor R hov trivial
  have R1 := R.step hov trivial e1
  obtain ⟨s2, r, e2, _⟩ := C06_valid_calls_succeed_partial default_factor R1
    (op := .alloc 0 100) ⟨Or.inl (by omega), Or.inl (by simp)⟩ trivial
  rw [exec_free] at e1
  obtain ⟨t, h1, h2⟩ := Outcome.bind_eq_ok e1
  rw [Outcome.pure_eq] at h2
  cases h2
  exact ⟨s, s1, s2, _, ⟨p, 100, true⟩, r, R, by simp, rfl, h1, e2⟩

end MpcAlloc
