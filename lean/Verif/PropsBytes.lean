import Verif.PropsCacheEnds

/-!
C82: the bytes that the process holds from the kernel. A bloc of a chain has 2 MB, or it holds a single block, which fills
it. Together with C81 this bounds what the process holds by what its blocks hold. For calls one at a time, for interleaved
calls, and when threads end.
-/

namespace MpcAlloc

/-! ## Specification -/

/-- The blocs that the search of a pointer may find: the entries of the regions, each with the size written in its header.
They share no byte. -/
structure Blocs {σ : Type} (w : World σ) (D : List (Nat × Nat)) : Prop where
  entry : ∀ d, d ∈ D ↔ d.1 ≠ 0 ∧ (∃ k, w.regs.ent k = d.1) ∧ hSize w.mem d.1 = d.2
  apart : D.Pairwise NoShare

/-- `p` lies in the bloc `d`. -/
def InBloc (d : Nat × Nat) (p : Nat) : Prop := d.1 ≤ p ∧ p < d.1 + d.2

/-- Bytes of the chunk of the block `p`, with its header, its padding and what was added by rounding: the size in the
header. -/
def chunkBytes (m : Mem) (p : Nat) : Nat :=
  match getChunkUnpadded m p with
  | .ok v => getSize m v
  | _ => 0

/-- Most of what is held for a block: a bloc of 2 MB, or its chunk and the 48 bytes of the marks of a bloc. -/
def heldFor (m : Mem) (p : Nat) : Nat := max MB2 (chunkBytes m p + 48)

/-- The chunk, of `z` bytes, of a new block of `N` bytes, boundary included: the size with the header of 16 bytes, rounded
up to 16, at least 32, and at most 16 bytes more. Above 1 MB: all the bloc, of the size with the marks rounded up to 2 MB,
but the 48 bytes of the marks. -/
def NewChunk (N z : Nat) : Prop :=
  (N + 16 ≤ 1048576 ∧ z ≤ max 32 ((N + 31) / 16 * 16) + 16) ∨
    (1048576 < N + 16 ∧ z + 48 = (N + 48 + (MB2 - 1)) / MB2 * MB2)

/-- The bloc `d` has 2 MB, or `l` is the only one of the blocks `Q` in it: the bytes of `l` that the client may use end 16
bytes, the end mark, before those of `d`. -/
def Filled (m : Mem) (Q : List PBlock) (d : Nat × Nat) (l : PBlock) : Prop :=
  d.2 = MB2 ∨ (MB2 < d.2 ∧ chunkBytes m l.ptr + 48 = d.2 ∧
    (∃ z, posixGetSize m l.ptr = .ok z ∧ l.ptr + z + 16 = d.1 + d.2) ∧ ∀ q ∈ Q, InBloc d q.ptr → q = l)

/-! ## Lemmas -/

/-- Disjoint areas that each hold one of the blocks `Q`. -/
theorem hit_sum (f : PBlock → Nat) : ∀ (D : List (Nat × Nat)) (Q : List PBlock), D.Pairwise Apart →
    (∀ d ∈ D, ∃ q ∈ Q, InBloc d q.ptr ∧ d.2 ≤ f q) → (D.map Prod.snd).sum ≤ (Q.map f).sum
  | [], _, _, _ => Nat.zero_le _
  | d :: D, Q, hp, h => by
    obtain ⟨hd, hp⟩ := List.pairwise_cons.1 hp
    obtain ⟨q, hq, ⟨h1, h2⟩, h3⟩ := h d List.mem_cons_self
    obtain ⟨Q1, Q2, rfl⟩ := List.append_of_mem hq
    have ih := hit_sum f D (Q1 ++ Q2) hp (fun e he => by
      obtain ⟨q', hq', ⟨h4, h5⟩, h6⟩ := h e (List.mem_cons_of_mem _ he)
      have := hd e he
      unfold Apart at this
      refine ⟨q', ?_, ⟨h4, h5⟩, h6⟩
      rcases List.mem_append.1 hq' with hq' | hq'
      · exact List.mem_append_left _ hq'
      · rcases List.mem_cons.1 hq' with rfl | hq'
        · omega
        · exact List.mem_append_right _ hq')
    simp only [List.map_append, List.sum_append, List.map_cons, List.sum_cons] at ih ⊢
    omega

section
variable {s : PS} {G : PSpec} {H : List Gh} {L : List (Nat × Nat)} {P : Res}

/-- Two blocs of chains that meet are the same. -/
theorem PBase.bloc_eq (B : PBase s H L P) {d e : Nat × Nat} (hd : d ∈ shapes H) (he : e ∈ shapes H) {x : Nat}
    (h1 : InBloc d x) (h2 : InBloc e x) : d = e := by
  by_contra hne
  have := pairwise_mem (fun _ _ h => Apart.symm h) (List.pairwise_append.1 B.lin.apart).1 hd he hne
  unfold Apart at this
  unfold InBloc at h1 h2
  omega

/-- The block of a used chunk lies in a bloc. -/
theorem PBase.in_bloc (B : PBase s H L P) {t : Nat} {g : Gh} (hg : H[t]? = some g) {k : Ck} (hk : g.A.Used k) :
    ∃ e ∈ g.A.shape, InBloc e k.uptr ∧ e.1 + 32 ≤ k.addr ∧ k.addr + k.size + 16 ≤ e.1 + e.2 := by
  obtain ⟨ch, _, T⟩ := B.getH hg
  obtain ⟨e, he, e1, e2⟩ := seg_of_has T.ch.wf hk.1
  have := T.ch.room k hk
  have := T.ch.wf.uptr_ge k
  exact ⟨e, he, ⟨by omega, by omega⟩, e1, e2⟩

/-- Every block has a used chunk. -/
theorem PBlk.chunk (K : PBlk True G H) (B : PBase s H L P) {l : PBlock} (hl : l ∈ G.live ++ G.pend) :
    ∃ g k, H[l.owner]? = some g ∧ g.A.Used k ∧ k.uptr = l.ptr := by
  rcases List.mem_append.1 hl with hl | hl
  · obtain ⟨g, k, h1, h2, _, h3, _⟩ := K.live l hl
    exact ⟨g, k, h1, h2, h3⟩
  · obtain ⟨g, k, h1, h2, h3, _⟩ := K.pend l hl
    obtain ⟨ch, _, T⟩ := B.getH h1
    exact ⟨g, k, h1, T.q.used k h2, h3⟩

theorem PBase.chunkBytes (B : PBase s H L P) {t : Nat} {g : Gh} (hg : H[t]? = some g) {k : Ck} (hk : g.A.Used k) :
    MpcAlloc.chunkBytes s.w.mem k.uptr = k.size := by
  obtain ⟨ch, _, T⟩ := B.getH hg
  obtain ⟨g1, _, g3⟩ := getChunkUnpadded_used T.ch.wf T.ch.mem hk
  have g1 : getChunkUnpadded s.w.mem k.uptr = .ok (k.addr + 15) := g1
  unfold MpcAlloc.chunkBytes
  rw [g1]
  exact g3

/-- In a process without leak a bloc of a chain holds a block, and has 2 MB or is filled by this block. -/
theorem PBlk.filled (K : PBlk True G H) (B : PBase s H L P) {d : Nat × Nat} (hd : d ∈ shapes H) :
    ∃ l ∈ G.live ++ G.pend, InBloc d l.ptr ∧ Filled s.w.mem (G.live ++ G.pend) d l := by
  obtain ⟨t, g, hg, hd'⟩ := mem_shapes.1 hd
  obtain ⟨ch, _, T⟩ := B.getH hg
  obtain ⟨hm, hs⟩ := T.ch.seg d hd'
  by_cases hb : d.2 = MB2
  · obtain ⟨l, hl, _, h1, h2⟩ := PInv.bloc_block B K hg hd'
    exact ⟨l, hl, ⟨h1, h2⟩, Or.inl hb⟩
  obtain ⟨k, hk, k1, k2⟩ := hs.resolve_left hb
  obtain ⟨_, l, hl, ho, hp⟩ := (K.clean trivial t g hg).2 k hk
  have hpos := (B.reg.bloc d (List.mem_append_left _ hd)).2.1
  have hbig : MB2 < d.2 := by
    have : MB2 = 2097152 := rfl
    omega
  have h48 : 48 < d.2 := Nat.lt_trans (by decide) hbig
  obtain ⟨e, he, e1, e2, e3⟩ := B.in_bloc hg hk
  have hu := T.ch.wf.uptr_ge k
  have hr := T.ch.room k hk
  refine ⟨l, hl, ⟨by omega, by omega⟩, Or.inr ⟨hbig, ?_, ?_, ?_⟩⟩
  · rw [hp, B.chunkBytes hg hk]; omega
  · exact ⟨_, hp ▸ (B.usable hg hk).1, by omega⟩
  · intro q hq hqd
    obtain ⟨g', k', hg', hk', hp'⟩ := K.chunk B hq
    obtain ⟨e', he', f1, f2, f3⟩ := B.in_bloc hg' hk'
    obtain rfl : d = e' := B.bloc_eq hd (mem_shapes.2 ⟨_, _, hg', he'⟩) hqd (hp' ▸ f1)
    by_contra hne
    have hne' := pairwise_mem (fun _ _ h => Ne.symm h) K.nodup hl hq (Ne.symm hne)
    have ht : q.owner = t := by
      by_contra ht
      have h1 := shapes_other hg' ht he'
      have h2 := (List.pairwise_append.1 (((shapes_perm hg).pairwise_iff Apart.symm).1
        (List.pairwise_append.1 B.lin.apart).1)).2.2 d hd' d h1
      unfold Apart at h2
      omega
    rw [ht, hg] at hg'
    obtain rfl := Option.some.inj hg'
    have h32 := (T.ch.wf.has_wf hk'.1).ge
    have := T.ch.wf.has_disj hk.1 hk'.1 (by rintro rfl; exact hne' (by rw [hp, hp']))
    omega

theorem PBase.blocs (B : PBase s H L P) (hP : P.env.blocs = []) : Blocs s.w (shapes H) := by
  have R := B.reg
  rw [hP, List.append_nil] at R
  refine ⟨fun d => ⟨fun hd => ?_, fun ⟨h0, ⟨k, hk⟩, hs⟩ => ?_⟩, (List.pairwise_append.1 B.lin.apart).1.imp (fun h => h.noShare)⟩
  · obtain ⟨h1, h2, h3, _, h4⟩ := R.bloc d hd
    exact ⟨by omega, ⟨_, R.set d hd (d.1 / MB2) (Nat.le_refl _) (by
      have : 0 < d.2 / MB2 := Nat.div_pos (Nat.le_of_dvd h2 (Nat.dvd_of_mod_eq_zero h3)) (by decide)
      omega)⟩, h4⟩
  · obtain ⟨e, he, h1, _⟩ := R.own k (by rw [hk]; exact h0)
    have h4 := (R.bloc e he).2.2.2.2
    have : d = e := Prod.ext (by rw [← hk, h1]) (by rw [← hs, ← h4, ← hk, h1])
    exact this ▸ he

theorem PBlk.bytes (K : PBlk True G H) (B : PBase s H L P) :
    ((shapes H).map Prod.snd).sum ≤ ((G.live ++ G.pend).map (fun l => heldFor s.w.mem l.ptr)).sum := by
  refine hit_sum _ _ _ (List.pairwise_append.1 B.lin.apart).1 (fun d hd => ?_)
  obtain ⟨l, hl, h1, h2⟩ := K.filled B hd
  refine ⟨l, hl, h1, ?_⟩
  unfold heldFor
  rcases h2 with h | ⟨_, h, _⟩ <;> omega

end

theorem newChunk_of {N z : Nat} (hsz : PSize N) (h16 : 16 ∣ z)
    (h : (calcChunkSize N ≤ 1048576 ∧ z < cutSize N + 32) ∨ (1048576 < calcChunkSize N ∧ z = blocSize N - 48)) :
    NewChunk N z := by
  have hlt := hsz.1
  have hM : MB2 = 2097152 := rfl
  have hcalc := calc_eq (n := N) (by omega)
  unfold NewChunk
  rcases h with ⟨k1, k2⟩ | ⟨k1, k2⟩
  · left
    unfold cutSize at k2
    omega
  · right
    unfold blocSize at k2
    omega

theorem NewChunk.le {N z : Nat} (h0 : 1 ≤ N) (h : NewChunk N z) : z ≤ N + 47 ∨ (1048576 < N + 16 ∧ z < N + MB2) := by
  have hM : MB2 = 2097152 := rfl
  unfold NewChunk at h
  omega

/-- What a call of the allocation takes for its block. -/
theorem memalign_chunk {C : Config} {cl : Prop} {Ω : Env} {s s' : PS} {G : PSpec} (I : PInv Ω cl s G) {t b n r : Nat}
    (ht : t < s.chs.length) (hb : GoodBound b) (hsz : PSize (reqSize b n)) (e : posixMemalign C s t b n = .ok (s', r)) :
    NewChunk (reqSize b n) (chunkBytes s'.w.mem r) := by
  have hc := List.getElem?_eq_getElem ht
  obtain ⟨u, e1, I1, _⟩ := purge_eff (C := C) I hc
  have hc1 := PS.put_get u ht
  obtain ⟨H, L, P, B, K⟩ := I1
  obtain ⟨c', g, hc', hg, T⟩ := B.get (List.getElem?_eq_some_iff.1 hc1).1
  obtain rfl : c' = u.c := Option.some.inj (hc'.symm.trans hc1)
  have J := B.at hc1 hg
  unfold posixMemalign at e
  rw [PS.loc_eq hc, Outcome.ok_bind, e1, Outcome.ok_bind] at e
  obtain ⟨⟨v, q⟩, e2, e⟩ := Outcome.bind_eq_ok e
  obtain ⟨rfl, rfl⟩ := Prod.mk.inj (Outcome.ok.inj e)
  have hN := reqSize_eq b n
  have h1 : (if n = 0 then 1 else n) ≠ 0 := by split <;> omega
  rcases salloc_ok (C := C) J hb h1 (hN ▸ hsz.1) (hN ▸ hsz.fits) with ⟨_, e3⟩ | ⟨w, d, A', L', e3, R⟩
  · have e3 : allocAlign (lightSource C) u b (if n = 0 then 1 else n) = .ub := e3
    rw [e3] at e2; cases e2
  have e3 : allocAlign (lightSource C) u b (if n = 0 then 1 else n) = .ok (w, d.uptr) := e3
  obtain ⟨rfl, rfl⟩ := Prod.mk.inj (Outcome.ok.inj (e3.symm.trans e2))
  obtain ⟨g1, _, g3⟩ := getChunkUnpadded_used R.inv.ch.wf R.inv.ch.mem ((R.used d).2 (Or.inr rfl))
  have hz : chunkBytes w.w.mem d.uptr = d.size := by
    have g1 : getChunkUnpadded w.w.mem d.uptr = .ok (d.addr + 15) := g1
    unfold chunkBytes
    rw [g1]
    exact g3
  have hz : chunkBytes (s.put t w).w.mem d.uptr = d.size := hz
  rw [hz]
  have hk := R.kind
  rw [← hN] at hk
  exact newChunk_of hsz (R.inv.ch.wf.has_wf ((R.used d).2 (Or.inr rfl)).1).dvd hk

/-! ## Properties -/

/-- C82, one call: the chunk of a new block, with header, padding and rounding: what was asked for (with the alignment) and
the header, rounded up to 16, and at most 16 bytes more; above 1 MB, all of a bloc. Missing: see `C82_overhead_partial`. -/
theorem C82_chunk_partial {C : Config} {X : POp → Prop} {s s' : PS} {G : PSpec} {t b n r : Nat} (hf : C.reallocFactor ≠ 0)
    (h : PReach C X s G) (ht : t < s.chs.length) (hb : GoodBound b) (hsz : PSize (reqSize b n))
    (e : posixMemalign C s t b n = .ok (s', r)) : NewChunk (reqSize b n) (chunkBytes s'.w.mem r) :=
  memalign_chunk (h.inv (cl := False) hf False.elim) ht hb hsz e

/-- C82, one call: the chunk of a new block, with header, padding and rounding, has at most 47 bytes more than what was
asked for (with the alignment), or less than 2 MB more if this is more than 1 MB. Missing: the sizes that do not fit (`PSize`), see
`C43_refuted`. -/
theorem C82_overhead_partial {C : Config} {X : POp → Prop} {s s' : PS} {G : PSpec} {t b n r : Nat} (hf : C.reallocFactor ≠ 0)
    (h : PReach C X s G) (ht : t < s.chs.length) (hb : GoodBound b) (hsz : PSize (reqSize b n))
    (e : posixMemalign C s t b n = .ok (s', r)) :
    chunkBytes s'.w.mem r ≤ reqSize b n + 47 ∨
      (1048576 < reqSize b n + 16 ∧ chunkBytes s'.w.mem r < reqSize b n + MB2) :=
  (C82_chunk_partial hf h ht hb hsz e).le (by unfold reqSize; split <;> omega)

/-- C82, for calls one at a time: every bloc holds a block, live or waiting for its owner. It has 2 MB, or this block is
alone in it and fills it. Missing: requests that need a chunk of 1 MB (`C78_refuted`: there is a bloc and no block). -/
theorem C82_filled_partial {C : Config} {s : PS} {G : PSpec} (hf : C.reallocFactor ≠ 0) (h : PReach C CleanOp s G) :
    ∃ D, Blocs s.w D ∧ ∀ d ∈ D, ∃ l ∈ G.live ++ G.pend, InBloc d l.ptr ∧ Filled s.w.mem (G.live ++ G.pend) d l := by
  obtain ⟨H, L, D, B, K⟩ := h.inv (cl := True) hf (fun _ _ h => h)
  exact ⟨_, B.blocs (PReach.env_blocs hf h (fun _ _ h => h)), fun d hd => K.filled B hd⟩

/-- C82, for calls one at a time: the bytes of the blocs and of the cache, which share none, are at most `keep_mem +
keep_max`, and for each block 2 MB, or its chunk and 48 bytes if this is more. Missing: see `C82_filled_partial`. -/
theorem C82_bytes_partial {C : Config} {s : PS} {G : PSpec} (hf : C.reallocFactor ≠ 0) (h : PReach C CleanOp s G) :
    ∃ D L, Blocs s.w D ∧ s.w.src.counter = D.length ∧ Cached s.w.mem s.w.src L ∧ (D ++ L).Pairwise NoShare ∧
      ((D ++ L).map Prod.snd).sum ≤
        ((G.live ++ G.pend).map (fun l => heldFor s.w.mem l.ptr)).sum + C.keepMem + C.keepMax := by
  have hk := h.kept hf
  obtain ⟨H, L, D, B, K⟩ := h.inv (cl := True) hf (fun _ _ h => h)
  refine ⟨_, L, B.blocs (PReach.env_blocs hf h (fun _ _ h => h)), B.lin.cnt, B.lin.cache, B.lin.apart.imp (fun h => h.noShare), ?_⟩
  have := K.bytes B
  have := B.lin.size
  unfold Kept at hk
  rw [List.map_append, List.sum_append]
  omega

/-- C82, for interleaved calls. Missing: see `C82_filled_partial`. -/
theorem C82_filled_interleaved_partial {C : Config} {k : MS} (hf : C.reallocFactor ≠ 0) (h : MReach C MClean k) :
    ∃ D, Blocs k.w D ∧ ∀ d ∈ D, ∃ l ∈ k.G.all, InBloc d l.ptr ∧ Filled k.w.mem k.G.all d l := by
  obtain ⟨Ω, hb, I⟩ := h.inv (cl := True) hf (fun _ _ h => h)
  obtain ⟨H, L, D, B, K⟩ := I.inv
  refine ⟨_, B.blocs hb, fun d hd => ?_⟩
  have := K.filled B hd
  simp only [List.append_nil] at this
  exact this

/-- C82, for interleaved calls. The blocks are those that are live, wait for their owner or belong to a call under way.
Missing: see `C82_filled_partial`. -/
theorem C82_bytes_interleaved_partial {C : Config} {k : MS} (hf : C.reallocFactor ≠ 0) (h : MReach C MClean k) :
    ∃ D L, Blocs k.w D ∧ k.w.src.counter = D.length ∧ Cached k.w.mem k.w.src L ∧ (D ++ L).Pairwise NoShare ∧
      ((D ++ L).map Prod.snd).sum ≤ (k.G.all.map (fun l => heldFor k.w.mem l.ptr)).sum + C.keepMem + C.keepMax := by
  have hk := h.kept hf
  obtain ⟨Ω, hb, I⟩ := h.inv (cl := True) hf (fun _ _ h => h)
  obtain ⟨H, L, D, B, K⟩ := I.inv
  refine ⟨_, L, B.blocs hb, B.lin.cnt, B.lin.cache, B.lin.apart.imp (fun h => h.noShare), ?_⟩
  have h1 := K.bytes B
  have h2 : k.w.src.size = _ := B.lin.size
  simp only [List.append_nil] at h1
  have h1 : _ ≤ (k.G.all.map (fun l => heldFor k.w.mem l.ptr)).sum := h1
  unfold Kept at hk
  rw [List.map_append, List.sum_append]
  omega

/-- C82, when threads end while the others run. Missing: see `C82_filled_partial`. -/
theorem C82_bytes_ends_partial {C : Config} {k : MS} (hf : C.reallocFactor ≠ 0) (h : ConcEnds.Reach C MClean k) :
    ∃ D L, Blocs k.w D ∧ k.w.src.counter = D.length ∧ Cached k.w.mem k.w.src L ∧ (D ++ L).Pairwise NoShare ∧
      ((D ++ L).map Prod.snd).sum ≤ (k.G.all.map (fun l => heldFor k.w.mem l.ptr)).sum + C.keepMem + C.keepMax := by
  have hk := ConcEnds.Reach.kept hf h
  obtain ⟨Ω, N, μ, hb, rfl, I⟩ := ConcEnds.Reach.inv (cl := True) hf (fun _ _ h => h) h
  obtain ⟨H, L, D, B, K⟩ := I.m.inv
  refine ⟨_, L, B.blocs hb, B.lin.cnt, B.lin.cache, B.lin.apart.imp (fun h => h.noShare), ?_⟩
  have h1 := K.bytes B
  have h2 : (N.tags μ).w.src.size = _ := B.lin.size
  simp only [List.append_nil] at h1
  have h1 : _ ≤ ((N.tags μ).G.all.map (fun l => heldFor (N.tags μ).w.mem l.ptr)).sum := h1
  unfold Kept at hk
  rw [List.map_append, List.sum_append]
  omega

/-- C82 is false for the other sizes: after `malloc(1048560)` and `free` there is a bloc in which there is no block. -/
theorem C82_refuted : ∃ C s G D, PReach C (fun _ => True) s G ∧ Blocs s.w D ∧ D ≠ [] ∧ G.live ++ G.pend = [] := by
  obtain ⟨s, h, hc⟩ := lost_bloc
  obtain ⟨Ω, hb, H, L, P, B, K⟩ := h.inv_ex (cl := False) (by decide) False.elim
  refine ⟨_, s, _, shapes H, h, B.blocs hb, ?_, rfl⟩
  intro hn
  have := B.lin.cnt
  rw [hn] at this
  rw [this] at hc
  exact absurd hc (by decide)

/-- Hypotheses of `C82_chunk_partial` and `C82_overhead_partial`: a thread gets a block of 5 MB. -/
example : ∃ s s' G r, PReach Config.default CleanOp s G ∧ 0 < s.chs.length ∧ GoodBound 0 ∧ PSize (reqSize 0 5242880) ∧
    posixMemalign Config.default s 0 0 5242880 = .ok (s', r) := by
  obtain ⟨s, r, h, hl, hr0, s0, h0, hl0, _, e⟩ := sample_block (C := Config.default) (X := CleanOp) (by decide)
    (fun _ _ _ => trivial) (n := 5242880) (by omega) (by unfold PSize; omega) (by omega)
    (by show CleanSize (reqSize 0 5242880); unfold CleanSize reqSize; simp)
  exact ⟨s0, s, _, r, h0, by omega, by unfold GoodBound; omega, by unfold PSize reqSize; simp, e⟩

/-- Hypotheses of `C82_filled_partial` and `C82_bytes_partial`: a thread has a block of 5 MB. -/
example : ∃ s G r, PReach Config.default CleanOp s G ∧ G.live = [⟨0, r, 5242880, true⟩] := by
  obtain ⟨s, r, h, hl, _⟩ := sample_block (C := Config.default) (X := CleanOp) (by decide) (fun _ _ _ => trivial) (n := 5242880)
    (by omega) (by unfold PSize; omega) (by omega) (by show CleanSize (reqSize 0 5242880); unfold CleanSize reqSize; simp)
  exact ⟨s, _, r, h, rfl⟩

/-- Hypotheses of `C82_filled_interleaved_partial` and `C82_bytes_interleaved_partial`: a thread waits in the queue of
another one. -/
example : ∃ k r, MReach Config.default MClean k ∧ k.pc 1 = .push 0 (.link r 0) 0 := by
  obtain ⟨k, r, h, _, _, _, _, p1, _, _⟩ := msample_link (C := Config.default) (X := MClean) (by decide)
    (by show CleanSize (reqSize 0 100); unfold CleanSize reqSize; simp) (fun _ => trivial)
  exact ⟨k, r, h, p1⟩

/-- Hypotheses of `C82_bytes_ends_partial`: a thread with a block has begun to end. -/
example : ∃ C k r, C.reallocFactor ≠ 0 ∧ ConcEnds.Reach C MClean k ∧ k.G.live = [⟨0, r, 100, true⟩] ∧
    ConcEnds.safe k 0 = true := by
  obtain ⟨k, r, z, hr, h, hp, hr0, hG, hz, hs⟩ := ConcEnds.start_small (X := MClean) ConcEnds.small_clean
  obtain ⟨v1, h1⟩ := h.flag (C := Config.default) (X := MClean) (hp 0)
  exact ⟨Config.default, ConcEnds.setSafe k 0, r, by decide, hr.event v1, by show k.G.live = _; rw [hG], h1.safe0⟩

end MpcAlloc
