import Verif.PropsSizeConc

/-!
C43 for the whole usable size of all the blocks, and for interleaved calls and threads that end: the bytes that the allocator
says to be usable, from two blocks, are different ones; and what this size is for a block without boundary.
-/

namespace MpcAlloc

/-! ## Specification -/

/-- The allocator says that `z` bytes are usable from `p` on, `sctk_alloc_posix_get_size`, sctk_alloc_posix.c 748-759. -/
def Usable (m : Mem) (p z : Nat) : Prop := posixGetSize m p = .ok z

/-- The `z` bytes from `p` on and the `y` bytes from `q` on are different ones. -/
def OwnBytes (p z q y : Nat) : Prop := ∀ x, ¬ ((p ≤ x ∧ x < p + z) ∧ (q ≤ x ∧ x < q + y))

/-- The blocks `B` are right: each has at least the requested bytes, all that it has is its own, and without boundary it has
all of its chunk but the header. -/
def UsableOK (m : Mem) (B : List PBlock) : Prop :=
  (∀ l ∈ B, ∃ z, Usable m l.ptr z ∧ l.len ≤ z ∧ (l.plain = true → chunkBytes m l.ptr = z + 16)) ∧
  ∀ l ∈ B, ∀ j ∈ B, l.ptr ≠ j.ptr → ∀ z y, Usable m l.ptr z → Usable m j.ptr y → OwnBytes l.ptr z j.ptr y

/-! ## Lemmas -/

/-- The usable bytes are those of the chunk behind the pointer. -/
theorem usable_at {Q : Nat} {m : Mem} {cc : Chain} {A : AHeap} {c : Ck} (T : ChSt Q m cc A) (hc : A.Used c) :
    posixGetSize m c.uptr = .ok (c.addr + c.size - c.uptr) := by
  have W := T.wf
  have hge := W.uptr_ge c
  have hroom := T.room c hc
  have hr := W.has_range hc.1
  obtain ⟨g1, g2, g3⟩ := getChunkUnpadded_used W T.mem hc
  have g1' : getChunkUnpadded m c.uptr = .ok (c.addr + 15) := g1
  have g3' : hSize m (vLarge (c.addr + 15)) = c.size := g3
  unfold posixGetSize
  rw [if_neg (by omega), g1', Outcome.ok_bind, if_neg (by omega), Outcome.pure_eq]
  unfold getUsableSize
  rw [g3', sub64_eq (a := c.uptr) (by omega) (by omega), sub64_eq (a := c.size) (by omega) (by omega)]
  congr 1
  unfold sub64 add64
  omega

theorem usable_chunk {s : PS} {H : List Gh} {L : List (Nat × Nat)} {P : Res} {i : Nat} {g : Gh} {c : Ck}
    (B : PBase s H L P) (hg : H[i]? = some g) (hc : g.A.Used c) :
    posixGetSize s.w.mem c.uptr = .ok (c.addr + c.size - c.uptr) := by
  obtain ⟨cc, hcc, T⟩ := B.getH hg
  exact usable_at T.ch hc

theorem usable_seen : Seen posixGetSize := by
  intro Q Q' m m' c c' A A' k T T' hk hk'
  rw [usable_at T hk, usable_at T' hk']

theorem usable_ok {Ω : Env} {cl : Prop} {s : PS} {G : PSpec} (I : PInv Ω cl s G) : UsableOK s.w.mem G.live := by
  obtain ⟨H, L, P, B, K⟩ := I
  refine ⟨fun l hl => ?_, fun l hl j hj hne z y hz hy x hx => ?_⟩
  · obtain ⟨g, c, hg, hc, hq, hp, hfit, hpl⟩ := K.live l hl
    obtain ⟨cc, hcc, T⟩ := B.getH hg
    have hroom := T.ch.room c hc
    have hge := T.ch.wf.uptr_ge c
    have hw := (T.ch.wf.has_wf hc.1).ge
    refine ⟨c.addr + c.size - l.ptr, ?_, by omega, fun h => ?_⟩
    · rw [← hp]; exact usable_chunk B hg hc
    · have h16 : c.uptr = c.addr + 16 := by simp only [Ck.uptr, Ck.off, hpl h]
      rw [← hp, B.chunkBytes hg hc]
      omega
  · obtain ⟨g, c, hg, hc, hq, hp, hfit, _⟩ := K.live l hl
    obtain ⟨g', c', hg', hc', hq', hp', hfit', _⟩ := K.live j hj
    obtain ⟨_, _, T⟩ := B.getH hg
    obtain ⟨_, _, T'⟩ := B.getH hg'
    have h1 := T.ch.wf.uptr_ge c
    have h2 := T'.ch.wf.uptr_ge c'
    have hd := B.disj hg' hg hc' hc (by
      by_contra h
      rw [not_or, not_not, not_not] at h
      exact hne (by rw [← hp', ← hp, h.2]))
    have e1 := usable_chunk B hg hc
    have e2 := usable_chunk B hg' hc'
    unfold Usable at hz hy
    rw [hp] at e1
    rw [hp'] at e2
    have hz := Outcome.ok.inj (e1.symm.trans hz)
    have hy := Outcome.ok.inj (e2.symm.trans hy)
    omega

/-! ## Properties -/

/-- C43, all the usable bytes: calls one at a time. Missing: the sizes from the huge limit on that do not fit (`C43_refuted`). -/
theorem C43_whole_partial {C : Config} {X : POp → Prop} {s : PS} {G : PSpec} (hf : C.reallocFactor ≠ 0)
    (h : PReach C X s G) : UsableOK s.w.mem G.live := usable_ok (h.inv (cl := False) hf False.elim)

/-- C43 for interleaved calls: all the blocks, those of the client, those in the hands of a call, and those that wait for
their owner. Missing: the sizes from the huge limit on that do not fit (`C43_refuted`). -/
theorem C43_interleaved_partial {C : Config} {X : MCall → Prop} {k : MS} (hf : C.reallocFactor ≠ 0)
    (h : MReach C X k) : UsableOK k.w.mem k.G.all := by
  obtain ⟨Ω, _, I⟩ := h.inv (cl := False) hf False.elim
  exact usable_ok I.inv

/-- C43 when threads end while the others run: also the blocks of the threads that have ended. Missing: the sizes from the
huge limit on that do not fit (`C43_refuted`). -/
theorem C43_ends_partial {C : Config} {X : MCall → Prop} {k : MS} (hf : C.reallocFactor ≠ 0)
    (h : ConcEnds.Reach C X k) : UsableOK k.w.mem k.G.all := by
  obtain ⟨Ω, N, μ, _, rfl, I⟩ := h.inv (cl := False) hf False.elim
  exact usable_ok (s := N.ps) (G := ⟨N.G.all, []⟩) I.m.inv

/-- C76 for a process, calls one at a time, the usable size: no call and no store changes it for a block that is live before and
after, with or without boundary. Missing: see `C76_process_partial`. -/
theorem C76_usable_process_partial {C : Config} {X : POp → Prop} {s s' : PS} {G : PSpec} {op : POp} {r z : Nat} {l l' : PBlock}
    (hf : C.reallocFactor ≠ 0) (h : PReach C X s G) (hv : PValid s G op) (e : pexec C s op = .ok (s', r))
    (hl : l ∈ G.live) (hl' : l' ∈ (G.after op r).live) (hp : l'.ptr = l.ptr) :
    Usable s'.w.mem l.ptr z ↔ Usable s.w.mem l.ptr z := by
  unfold Usable
  rw [kept_call usable_seen hf h hv e hl hl' hp]

/-- C76 for interleaved calls, the usable size: it does not change as long as there is a block at this address, with or without
boundary. Missing: see `C76_interleaved_event_partial`. -/
theorem C76_usable_interleaved_partial {C : Config} {X : MCall → Prop} {k k' : MS} {p z : Nat} (hf : C.reallocFactor ≠ 0)
    (h : MReach C X k) (e : Lasts (MNext C X) p k k') : Usable k'.w.mem p z ↔ Usable k.w.mem p z := by
  have key := (Lasts.chunk (F := posixGetSize) (Y := MReach C X)
    (fun h e => ⟨h.next e, kept_next usable_seen hf h e⟩) h e).2
  unfold Usable
  rw [key]

/-- C76 when threads end while the others run, the usable size: it does not change as long as there is a block at this address,
with or without boundary, also when the thread of the block has ended. Missing: see `C76_interleaved_event_partial`. -/
theorem C76_usable_ends_partial {C : Config} {X : MCall → Prop} {k k' : MS} {p z : Nat} (hf : C.reallocFactor ≠ 0)
    (h : ConcEnds.Reach C X k) (e : Lasts (ConcEnds.Event C X) p k k') : Usable k'.w.mem p z ↔ Usable k.w.mem p z := by
  have key := (Lasts.chunk (F := posixGetSize) (Y := ConcEnds.Reach C X)
    (fun h e => ⟨h.event e, ConcEnds.kept_event usable_seen hf h e⟩) h e).2
  unfold Usable
  rw [key]

/-- Hypotheses of the theorems: a block of a thread that has begun to end. -/
example : ∃ k r, ConcEnds.Reach Config.default MClean k ∧ (⟨0, r, 100, true⟩ : PBlock) ∈ k.G.all ∧ ConcEnds.safe k 0 = true := by
  obtain ⟨k, r, z, hr, h, hp, hr0, hG, hz, hs⟩ := ConcEnds.start_small (X := MClean) ConcEnds.small_clean
  obtain ⟨v1, h1⟩ := h.flag (C := Config.default) (X := MClean) (hp 0)
  exact ⟨_, r, hr.event v1, by show _ ∈ k.G.all; rw [hG]; simp [MSpec.all], h1.safe0⟩

/-- Hypotheses of `C76_usable_interleaved_partial`: a thread begins to resize its block. -/
example : ∃ k k' r z z', MReach Config.default (fun _ => True) k ∧ Lasts (MNext Config.default (fun _ => True)) r k k' ∧
    (⟨0, r, 100, true⟩ : PBlock) ∈ k'.G.all ∧ Usable k.w.mem r z ∧ Usable k'.w.mem r z' := by
  have hf : Config.default.reallocFactor ≠ 0 := by decide
  obtain ⟨k, k', r, h, _, e, hpc, hb, hL⟩ := msample_rlocal hf (n := 100) (by omega) (by unfold PSize; omega)
  obtain ⟨z', hz', _⟩ := (C43_interleaved_partial hf (h.step e)).1 _ hb
  have hk : IsBlock k r := by
    have key : ∀ {k'}, Lasts (MNext Config.default (fun _ => True)) r k k' → IsBlock k r := by
      intro k' hL
      induction hL with
      | refl h => exact h
      | tail _ _ _ ih => exact ih
    exact key hL
  obtain ⟨l, hl, rfl⟩ := hk
  obtain ⟨z, hz, _⟩ := (C43_interleaved_partial hf h).1 l hl
  exact ⟨k, k', l.ptr, z, z', h, hL, hb, hz, hz'⟩

/-- Hypotheses of `C76_usable_ends_partial`: the thread of a block begins to end. -/
example : ∃ k k' r z, ConcEnds.Reach Config.default MClean k ∧ Lasts (ConcEnds.Event Config.default MClean) r k k' ∧
    ConcEnds.safe k' 0 = true ∧ Usable k.w.mem r z ∧ 100 ≤ z := by
  have hf : Config.default.reallocFactor ≠ 0 := by decide
  obtain ⟨k, r, z, hr, h, hp, hr0, hG, hz, hs⟩ := ConcEnds.start_small (X := MClean) ConcEnds.small_clean
  obtain ⟨v1, h1⟩ := h.flag (C := Config.default) (X := MClean) (hp 0)
  have hm : (⟨0, r, 100, true⟩ : PBlock) ∈ k.G.all := by rw [hG]; simp [MSpec.all]
  have hb : IsBlock k r := ⟨_, hm, rfl⟩
  have hb1 : IsBlock (ConcEnds.setSafe k 0) r := hb
  obtain ⟨y, hy, hy2, _⟩ := (C43_ends_partial hf hr).1 _ hm
  exact ⟨k, _, r, y, hr, (Lasts.refl hb).tail v1 hb1, h1.safe0, hy, hy2⟩

/-- Hypotheses of `C76_usable_process_partial`: a block with a boundary of 64 bytes, and a store into it. -/
example : ∃ s s' G l z, PReach Config.default (fun _ => True) s G ∧ l ∈ G.live ∧ l.plain = false ∧ PValid s G (.write l.ptr 7) ∧
    pexec Config.default s (.write l.ptr 7) = .ok (s', 0) ∧ l ∈ (G.after (.write l.ptr 7) 0).live ∧ Usable s.w.mem l.ptr z ∧
    200 ≤ z := by
  have hf : Config.default.reallocFactor ≠ 0 := by decide
  obtain ⟨s, h, hl, hm⟩ := sample_threads (C := Config.default) (X := fun _ => True) hf (fun _ _ _ => trivial)
  have hr : reqSize 64 200 = 264 := rfl
  have v : PValid s ⟨[], []⟩ (.memalign 0 64 200) := ⟨by omega, Or.inr ⟨6, rfl⟩, by rw [hr]; unfold PSize; omega⟩
  rcases memalign_op (C := Config.default) (h.inv (cl := False) hf False.elim) v.1 v.2.1 v.2.2 False.elim with
    ⟨h1, _⟩ | ⟨s', r, e, hr0, _, _, _, _, len⟩
  · exact absurd (hm (reqSize 64 200) (by omega)) h1
  · have e' : pexec Config.default s (.memalign 0 64 200) = .ok (s', r) := e
    have h' := PReach.step h v trivial e'
    have hb : (⟨0, r, 200, false⟩ : PBlock) ∈ (PSpec.after ⟨[], []⟩ (.memalign 0 64 200) r).live := (add_live hr0).2 (Or.inl rfl)
    obtain ⟨z, hz, hz2, _⟩ := (C43_whole_partial hf h').1 _ hb
    exact ⟨s', _, _, ⟨0, r, 200, false⟩, z, h', hb, rfl, ⟨_, hb, by unfold PBlock.Byte; simp only; omega⟩, rfl, hb, hz, hz2⟩

end MpcAlloc
