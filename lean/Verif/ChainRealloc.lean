import Verif.ChainInit

/-
`sctk_alloc_chain_realloc` on a chain without source.
-/

namespace MpcAlloc

variable {σ : Type}

theorem GotRel.usedD {pb : Nat} {A A' : AHeap} {b n : Nat} {c d : Ck} (R : GotRel pb A b n c d A') : A'.Used d :=
  (R.used d).2 (Or.inr rfl)

/-- Bytes left alone by the chain before an allocation are also left alone after it. -/
theorem GotRel.quiet {pb : Nat} {A A' : AHeap} {b n : Nat} {c d : Ck} (W : A.WF pb) (R : GotRel pb A b n c d A')
    {x : Nat} (h : Quiet pb A x) : Quiet pb A' x := by
  refine ⟨h.1, fun hx => h.2.1 (R.freeAt x hx), ?_⟩
  rintro ⟨s, hs, e, he, h1, h2⟩
  have hesz := ((R.wf.seg s hs).ext_size he).1
  rcases List.mem_append.1 he with he' | he'
  · have heH : A'.Has e := ⟨s, hs, he'⟩
    rcases AHeap.has_used_or_free R.wf heH with hu | hf
    · rcases (R.used e).1 hu with hu | rfl
      · obtain ⟨⟨t, ht, het⟩, _⟩ := hu
        exact h.2.2 ⟨t, ht, e, Seg.mem_ext het, h1, h2⟩
      · have := R.addr
        have := R.le
        exact h.2.1 ⟨c, R.has, R.free, by omega, by omega⟩
    · exact h.2.1 (R.freeAt x ⟨e, heH, hf, h1, by omega⟩)
  · rw [List.mem_singleton] at he'
    have : (s.base, s.size) ∈ A.shape := by
      rw [← R.shape]; exact List.mem_map.2 ⟨s, hs, rfl⟩
    obtain ⟨t, ht, hte⟩ := List.mem_map.1 this
    simp only [Prod.mk.injEq] at hte
    have e1 : t.stop = s.stop := by unfold Seg.stop; rw [hte.1, hte.2]
    exact h.2.2 ⟨t, ht, e, by rw [he', ← e1]; exact t.stop_mem_ext, h1, h2⟩

/-- The block of `c` can be read up to the size considered by the code. -/
def ReallocSafe (c : Ck) (n : Nat) : Prop := c.uptr + min (c.size - 16) n ≤ c.addr + c.size

theorem reallocSafe_unpadded {c : Ck} (n : Nat) (h : c.st = .used none) (hs : 16 ≤ c.size) : ReallocSafe c n := by
  unfold ReallocSafe Ck.uptr Ck.off
  rw [h]
  simp only
  omega

/-- The block is kept in place. -/
def ReallocKeep (C : Config) (c : Ck) (n : Nat) : Prop :=
  n ≤ c.size - 16 ∧ c.size - 16 - n ≤ C.reallocThreshold ∧ c.size - 16 - n ≤ (c.size - 16) / C.reallocFactor

/-- Abstract effect of `realloc` of the live block of `c` to `n > 0` bytes. -/
inductive ReallocRel (pb : Nat) (C : Config) (hook : Nat) (A : AHeap) (c : Ck) (n : Nat) : Nat → AHeap → Prop
  | keep : ReallocKeep C c n → ReallocRel pb C hook A c n c.uptr A
  | fail {A' : AHeap} : ¬ ReallocKeep C c n →
      (∀ d, A.Has d → d.st = .free → d.size ≤ MB2 → d.size < calcChunkSize (alignedSize hook n)) →
      FreeRel pb A c A' → ReallocRel pb C hook A c n 0 A'
  | move {A1 A' : AHeap} {c0 d : Ck} : ¬ ReallocKeep C c n → GotRel pb A hook n c0 d A1 → FreeRel pb A1 c A' →
      d.uptr ≠ 0 → ReallocRel pb C hook A c n d.uptr A'

theorem getChunk_used {pb : Nat} {A : AHeap} {h : Heap} {c : Ck} (W : A.WF pb)
    (H : MemOK (stdPool pb) h A) (hc : A.Used c) :
    ∃ v, getChunk h.mem c.uptr = .ok v ∧ v ≠ 0 ∧ getUnpaddedSize h.mem v = .ok c.size := by
  obtain ⟨g1, g2, g3⟩ := getChunkUnpadded_used W H hc
  have hr := W.has_range hc.1
  unfold getChunkUnpadded at g1
  obtain ⟨v, e1, e2⟩ := Outcome.bind_eq_ok g1
  refine ⟨v, e1, ?_, ?_⟩
  · rintro rfl
    unfold unpadVchunk at e2
    simp at e2
  · unfold getUnpaddedSize
    rw [e2, Outcome.ok_bind, Outcome.pure_eq]
    exact congrArg _ g3

theorem memCopy_ok {m : Mem} {dst src n : Nat} (h : dst + n ≤ src ∨ src + n ≤ dst) :
    ∃ m', memCopy m dst src n = .ok m' ∧ (∀ i, i < n → m' (dst + i) = m (src + i)) ∧
      ∀ x, x < dst ∨ dst + n ≤ x → m' x = m x := by
  unfold memCopy
  rw [if_pos (Or.inr h)]
  refine ⟨_, rfl, ?_, ?_⟩
  · intro i hi
    rw [if_pos (by omega)]
    congr 1
    omega
  · intro x hx
    rw [if_neg (by omega)]

/-- `realloc` of any live block. For a block that may be read past the end of its chunk the copy is the only thing that
can go wrong (overlapping areas). -/
theorem realloc_any {pb : Nat} {A : AHeap} {c : Ck} {hook n : Nat} (S : Source σ) (C : Config) (W : A.WF pb)
    (hc : A.Used c) (hb : GoodBound hook) (hn : n ≠ 0) 
    (hsz : alignedSize hook n + 16 < W63 ∨ (alignedSize hook n + 16 < W64 ∧ A.fl 42 = []))
    (hfac : C.reallocFactor ≠ 0) (noMerge : Bool) :
    ∃ r A', ReallocRel pb C hook A c n r A' ∧ A'.WF pb ∧ (noMerge = false → A.NoAdj → A'.NoAdj) ∧
      A'.shape = A.shape ∧
      ∀ s : CS σ, ChainInv pb s A → s.c.hasSrc = false → s.c.noMerge = noMerge →
        (ReallocSafe c n ∨ chainRealloc S C hook s c.uptr n ≠ .ub) →
        ∃ h', chainRealloc S C hook s c.uptr n = .ok (s.setHeap h', r) ∧ MemOK (stdPool pb) h' A' ∧
          (∀ x, Quiet pb A x → (x < c.addr ∨ c.addr + c.size ≤ x) → h'.mem x = s.w.mem x) ∧
          (r ≠ 0 → ∀ i, i < min (c.size - 16) n → c.uptr + i < c.addr + c.size →
            h'.mem (r + i) = s.w.mem (c.uptr + i)) ∧
          (r = c.uptr → h' = s.heap) := by
  have hr := W.has_range hc.1
  have hcw := W.has_wf hc.1
  have hge := hcw.ge
  have hu := W.uptr_ge c
  have hold : sub64 c.size 16 = c.size - 16 := sub64_eq (by omega) (by omega)
  -- common start
  have start : ∀ s : CS σ, ChainInv pb s A → chainRealloc S C hook s c.uptr n =
      (if n ≤ c.size - 16 ∧ sub64 (c.size - 16) n ≤ C.reallocThreshold ∧
          sub64 (c.size - 16) n ≤ (c.size - 16) / C.reallocFactor then .ok (s, c.uptr)
      else do
        let (s, res) ← chainAlloc S hook s n
        let s ← (if res ≠ 0 then do
            let m ← memCopy s.w.mem res c.uptr (if c.size - 16 < n then c.size - 16 else n)
            pure (s.setMem m)
          else pure s)
        let s ← chainFree S C s c.uptr
        return (s, res)) := by
    intro s I
    obtain ⟨v, e1, e2, e3⟩ := getChunk_used W I.mem hc
    have e1' : getChunk s.w.mem c.uptr = .ok v := e1
    have e3' : getUnpaddedSize s.w.mem v = .ok c.size := e3
    unfold chainRealloc
    rw [if_neg (by omega), if_neg (by omega), if_neg hn, e1', Outcome.ok_bind, if_pos e2, e3', Outcome.ok_bind]
    simp only
    rw [hold, if_neg (by omega)]
    rfl
  have hkeep : (n ≤ c.size - 16 ∧ sub64 (c.size - 16) n ≤ C.reallocThreshold ∧
          sub64 (c.size - 16) n ≤ (c.size - 16) / C.reallocFactor) ↔ ReallocKeep C c n := by
    unfold ReallocKeep
    constructor
    · rintro ⟨h1, h2, h3⟩
      rw [sub64_eq h1 (by omega)] at h2 h3
      exact ⟨h1, h2, h3⟩
    · rintro ⟨h1, h2, h3⟩
      rw [sub64_eq h1 (by omega)]
      exact ⟨h1, h2, h3⟩
  by_cases hk : ReallocKeep C c n
  · refine ⟨c.uptr, A, .keep hk, W, fun _ h => h, rfl, ?_⟩
    intro s I _ _ _
    refine ⟨s.heap, ?_, I.mem, fun _ _ _ => rfl, fun _ _ _ _ => rfl, fun _ => rfl⟩
    rw [start s I, if_pos (hkeep.2 hk), CS.setHeap_heap]
  obtain ⟨r, A1, hA1, W1, hs1⟩ := alloc_ok (b := hook) (n := n) S W hb hsz
  have hcr : ∀ s : CS σ, ChainInv pb s A → s.c.hasSrc = false → ∃ h', chainAlloc S hook s n = .ok (s.setHeap h', r) ∧
      MemOK (stdPool pb) h' A1 ∧ (∀ x, Quiet pb A x → h'.mem x = s.w.mem x) ∧ (r = 0 → h' = s.heap) := hs1
  rcases hA1 with ⟨rfl, rfl, hno⟩ | ⟨c0, d, R, rfl, hne⟩
  · obtain ⟨A', RF, ⟨hna, _⟩, hs2⟩ := free_ok S C W hc noMerge
    refine ⟨0, A', .fail hk (hno hn) RF, RF.wf, hna, RF.shape, ?_⟩
    intro s I hsrc hnm _
    obtain ⟨h1, e1, M1, f1, z1⟩ := hcr s I hsrc
    have := z1 rfl
    subst this
    obtain ⟨h2, e2, M2, f2⟩ := hs2 s I hsrc hnm
    refine ⟨h2, ?_, M2, f2, fun h => absurd rfl h, fun h => by omega⟩
    rw [start s I, if_neg (fun h => hk (hkeep.1 h)), e1, Outcome.ok_bind]
    simp only
    rw [if_neg (by simp), Outcome.pure_eq, Outcome.ok_bind, CS.setHeap_heap, e2, Outcome.ok_bind]
    rfl
  · have hcU1 : A1.Used c := (R.used c).2 (Or.inl hc)
    have hdc : d ≠ c := by rintro rfl; exact R.fresh hc
    have hdisj := R.wf.has_disj R.usedD.1 hcU1.1 hdc
    have hdu := R.wf.uptr_ge d
    obtain ⟨A', RF, ⟨hna, _⟩, hs2⟩ := free_ok S C R.wf hcU1 noMerge
    refine ⟨d.uptr, A', .move hk R RF hne, RF.wf, fun h1 h2 => hna h1 (R.noAdj h2), RF.shape.trans R.shape, ?_⟩
    intro s I hsrc hnm hsafe
    obtain ⟨h1, e1, M1, f1, _⟩ := hcr s I hsrc
    have I1 : ChainInv pb (s.setHeap h1) A1 := I.setHeap M1 R.shape
    have hmin : (if c.size - 16 < n then c.size - 16 else n) = min (c.size - 16) n := by
      split <;> omega
    have hfit := R.fit
    have hsep : d.uptr + min (c.size - 16) n ≤ c.uptr ∨ c.uptr + min (c.size - 16) n ≤ d.uptr := by
      rcases hsafe with h | h
      · unfold ReallocSafe at h; omega
      · by_contra hcon
        apply h
        rw [start s I, if_neg (fun h => hk (hkeep.1 h)), e1, Outcome.ok_bind]
        simp only
        rw [if_pos hne, hmin]
        unfold memCopy
        rw [if_neg (by omega)]
        rfl
    generalize hL : min (c.size - 16) n = L at *
    have hLn : L ≤ n := by omega
    obtain ⟨m2, e2, cp, f2⟩ := memCopy_ok (m := h1.mem) (dst := d.uptr) (src := c.uptr) (n := L) hsep
    have hin : ∀ x, d.uptr ≤ x → x < d.uptr + L → A1.UserAt x := fun x g1 g2 => ⟨d, R.usedD, g1, by omega⟩
    have M2 : MemOK (stdPool pb) { h1 with mem := m2 } A1 := by
      refine M1.congr R.wf ?_
      intro x hx
      apply f2
      by_contra hcon
      have hux := hin x (by omega) (by omega)
      rcases hx with hx | hx
      · exact (R.wf.user_quiet hux).1 hx
      · exact hx.2 hux
    have I2 : ChainInv pb (s.setHeap { h1 with mem := m2 }) A1 := I.setHeap M2 R.shape
    obtain ⟨h3, e3, M3, f3⟩ := hs2 (s.setHeap { h1 with mem := m2 }) I2 hsrc hnm
    refine ⟨h3, ?_, M3, ?_, ?_, ?_⟩
    · rw [start s I, if_neg (fun h => hk (hkeep.1 h)), e1, Outcome.ok_bind]
      simp only
      rw [if_pos hne, CS.setHeap_mem, hmin, e2, Outcome.ok_bind, Outcome.pure_eq, Outcome.ok_bind,
        CS.setMem_setHeap, e3, Outcome.ok_bind]
      rfl
    · intro x hq hx
      refine (f3 x (R.quiet W hq) hx).trans (Eq.trans ?_ (f1 x hq))
      refine f2 x ?_
      by_contra hcon
      have := R.addr
      have := R.le
      exact hq.2.1 ⟨c0, R.has, R.free, by omega, by omega⟩
    · intro _ i hi hi2
      have hq1 := R.wf.user_quiet (hin (d.uptr + i) (by omega) (by omega))
      refine (f3 (d.uptr + i) hq1 (by omega)).trans ((cp i (by omega)).trans ?_)
      exact f1 _ (W.user_quiet ⟨c, hc, by omega, by omega⟩)
    · intro h; omega

theorem realloc_ok {pb : Nat} {A : AHeap} {c : Ck} {hook n : Nat} (S : Source σ) (C : Config) (W : A.WF pb)
    (hc : A.Used c) (hb : GoodBound hook) (hn : n ≠ 0)
    (hsz : alignedSize hook n + 16 < W63 ∨ (alignedSize hook n + 16 < W64 ∧ A.fl 42 = []))
    (hfac : C.reallocFactor ≠ 0) (hsafe : ReallocSafe c n) (noMerge : Bool) :
    ∃ r A', ReallocRel pb C hook A c n r A' ∧ A'.WF pb ∧ (noMerge = false → A.NoAdj → A'.NoAdj) ∧
      A'.shape = A.shape ∧
      ∀ s : CS σ, ChainInv pb s A → s.c.hasSrc = false → s.c.noMerge = noMerge →
        ∃ h', chainRealloc S C hook s c.uptr n = .ok (s.setHeap h', r) ∧ MemOK (stdPool pb) h' A' ∧
          (∀ x, Quiet pb A x → (x < c.addr ∨ c.addr + c.size ≤ x) → h'.mem x = s.w.mem x) ∧
          (r ≠ 0 → ∀ i, i < min (c.size - 16) n → h'.mem (r + i) = s.w.mem (c.uptr + i)) ∧
          (r = c.uptr → h' = s.heap) := by
  obtain ⟨r, A', h1, h2, h3, h4, h5⟩ := realloc_any S C W hc hb hn hsz hfac noMerge
  refine ⟨r, A', h1, h2, h3, h4, fun s I hsrc hnm => ?_⟩
  obtain ⟨h', e, M, f, cp, k⟩ := h5 s I hsrc hnm (Or.inl hsafe)
  refine ⟨h', e, M, f, fun hr i hi => cp hr i hi ?_, k⟩
  unfold ReallocSafe at hsafe
  omega

end MpcAlloc
