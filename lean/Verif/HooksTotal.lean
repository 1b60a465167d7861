import Verif.HooksLight

/-
The hooks of the allocations and of the frees add no failure on a chain fed by the light source.
-/

namespace MpcAlloc.Hooks

variable {σ : Type} {H : Tab} {S : Source σ} {C : Config} {s s' : CS σ}

theorem er_ok {α : Type} {x : Outcome (α × List Ev)} {a : α} (h : er x = .ok a) : ∃ e, x = .ok (a, e) := by
  obtain ⟨⟨b, e⟩, h1, h2⟩ := Outcome.bind_eq_ok h
  cases h2
  exact ⟨e, h1⟩

theorem er2_ok {α β : Type} {x : Outcome (α × β × List Ev)} {a : α × β} (h : er2 x = .ok a) : ∃ e, x = .ok (a.1, a.2, e) := by
  obtain ⟨⟨b, c, e⟩, h1, h2⟩ := Outcome.bind_eq_ok h
  cases h2
  exact ⟨e, h1⟩

theorem freeLockedH_total {v : Nat} (h : freeLocked S s v = .ok s') (hm : ∃ r, mergeH H s v = .ok r) :
    ∃ e, freeLockedH H S s v = .ok (s', e) := by
  unfold freeLocked at h
  unfold freeLockedH
  obtain ⟨x, h1, h2⟩ := Outcome.bind_eq_ok h
  have h1' : (if s.c.base ≠ 0 then getChunk s.w.mem (add64 s.c.base 16) else .ok 0) = .ok x := h1
  rw [h1', Outcome.ok_bind]
  obtain ⟨⟨t, v', e1⟩, hm⟩ := hm
  obtain ⟨q, h3, rfl, rfl⟩ := mergeH_er hm
  rw [h3, Outcome.ok_bind] at h2
  rw [hm, Outcome.ok_bind]
  simp only at h2 ⊢
  split at h2
  · rename_i hc
    rw [if_pos hc]
    rw [← freeMacroBlocH_er H] at h2
    obtain ⟨e, h4⟩ := er_ok h2
    rw [h4, Outcome.ok_bind]
    exact ⟨_, rfl⟩
  · rename_i hc
    rw [if_neg hc]
    obtain ⟨h5, h6, h7⟩ := Outcome.bind_eq_ok h2
    rw [h6, Outcome.ok_bind]
    cases h7
    exact ⟨_, rfl⟩

theorem chainFreeH_total {p : Nat} (h : chainFree S C s p = .ok s')
    (hm : ∀ v s1, getChunkUnpadded s.w.mem p = .ok v → lockIf s = .ok s1 → ∃ r, mergeH H s1 v = .ok r) :
    ∃ e, chainFreeH H S C s p = .ok (s', e) := by
  unfold chainFree at h
  unfold chainFreeH
  split at h
  · cases h
  · rename_i hd
    rw [if_neg hd]
    split at h
    · rename_i hp
      rw [if_pos hp]
      cases h
      exact ⟨_, rfl⟩
    · rename_i hp
      rw [if_neg hp]
      obtain ⟨v, h1, h2⟩ := Outcome.bind_eq_ok h
      rw [h1, Outcome.ok_bind]
      split at h2
      · rename_i hv
        rw [if_pos hv]
        split at h2
        · cases h2
        · rename_i hs
          rw [if_neg hs]
          cases h2
          exact ⟨_, rfl⟩
      · rename_i hv
        rw [if_neg hv]
        split at h2
        · cases h2
        · rename_i hi
          rw [if_neg hi]
          split at h2
          · rename_i hh
            rw [if_pos hh]
            rw [← freeMacroBlocH_er H] at h2
            obtain ⟨e, h3⟩ := er_ok h2
            rw [h3, Outcome.ok_bind]
            exact ⟨_, rfl⟩
          · rename_i hh
            rw [if_neg hh]
            obtain ⟨s1, h3, h4⟩ := Outcome.bind_eq_ok h2
            obtain ⟨s2, h5, h6⟩ := Outcome.bind_eq_ok h4
            obtain ⟨e, h7⟩ := freeLockedH_total (H := H) h5 (hm v s1 h1 h3)
            rw [h3, Outcome.ok_bind, h7, Outcome.ok_bind]
            simp only
            rw [h6, Outcome.ok_bind]
            exact ⟨_, rfl⟩

theorem takeH_total {chunk n v : Nat} (h : er2 (takeH Tab.none s chunk n) = .ok (s', v))
    (hp : ∃ a, getPtr s'.w.mem v = .ok a) : ∃ e, takeH H s chunk n = .ok (s', v, e) := by
  obtain ⟨e, h⟩ := er2_ok h
  unfold takeH at *
  split at h
  · cases h
  · rename_i h32
    rw [if_neg h32]
    obtain ⟨⟨m, v1, res⟩, e1, h1⟩ := Outcome.bind_eq_ok h
    rw [e1, Outcome.ok_bind]
    simp only at h1 ⊢
    split at h1
    · cases h1
    · rename_i hs
      rw [if_neg hs]
      split at h1
      · rename_i hr
        rw [if_pos hr]
        obtain ⟨h2, e2, h3⟩ := Outcome.bind_eq_ok h1
        rw [e2, Outcome.ok_bind]
        obtain ⟨e4, e3, h4⟩ := Outcome.bind_eq_ok h3
        have h4 := Outcome.ok.inj h4
        simp only [Prod.mk.injEq] at h4
        obtain ⟨r1, r2, _⟩ := h4
        obtain ⟨a, ha⟩ := hp
        rcases splitHook_cases H ((s.setMem m).setHeap h2) v1 res with ⟨e5, k⟩ | ⟨_, k⟩
        · rw [k, Outcome.ok_bind, r1, r2]
          exact ⟨_, rfl⟩
        · rw [r1, r2, ha] at k
          cases k
      · rename_i hr
        rw [if_neg hr]
        have h1 := Outcome.ok.inj h1
        simp only [Prod.mk.injEq] at h1
        obtain ⟨r1, r2, _⟩ := h1
        rw [r1, r2]
        exact ⟨_, rfl⟩

theorem allocLockedH_total {n v : Nat} (h : allocLocked S s n = .ok (s', v)) (hp : v ≠ 0 → ∃ a, getPtr s'.w.mem v = .ok a) :
    (∃ e, allocLockedH H S s n = .ok (s', v, e)) ∨ v = 0 := by
  by_cases hv : v = 0
  · exact Or.inr hv
  left
  rw [allocLocked_eq H] at h
  unfold allocLockedH
  obtain ⟨⟨s1, c⟩, h1, h2⟩ := Outcome.bind_eq_ok h
  obtain ⟨e1, h3⟩ := er2_ok h1
  rw [h3, Outcome.ok_bind]
  simp only at h2 ⊢
  split at h2
  · cases h2; exact absurd rfl hv
  · rename_i hc
    rw [if_neg hc]
    obtain ⟨e2, h4⟩ := takeH_total (H := H) h2 (hp hv)
    rw [h4, Outcome.ok_bind]
    exact ⟨_, rfl⟩

/-- An allocation that returns a block does so with the hooks, provided the header of the chunk found is readable. -/
theorem allocAlignH_total {b n r : Nat} (hb : b + 8 ≤ W64) (h : allocAlign S s b n = .ok (s', r)) (hr : r ≠ 0)
    (hp : ∀ u u' v, v ≠ 0 → Got S s (if b > 1 then add64 n b else n) u u' v → ∃ a, getPtr u.w.mem v = .ok a) :
    ∃ e, allocAlignH H S s b n = .ok (s', r, e) := by
  unfold allocAlign at h
  unfold allocAlignH
  split at h
  · cases h
  · rename_i hd
    rw [if_neg hd]
    split at h
    · cases h; exact absurd rfl hr
    · rename_i hn
      rw [if_neg hn]
      simp only at h ⊢
      generalize (if b > 1 then add64 n b else n) = N at *
      unfold Got at hp
      split at h
      · rename_i hh
        rw [if_pos hh]
        obtain ⟨⟨u, v⟩, h1, h2⟩ := Outcome.bind_eq_ok h
        have h1' := h1
        rw [← requestMemH_er H] at h1
        obtain ⟨e1, h3⟩ := er2_ok h1
        rw [h3, Outcome.ok_bind]
        have h2 := Outcome.ok.inj h2
        simp only at h2 ⊢
        have hv : v ≠ 0 := by
          rintro rfl
          have := padAndReturn_zero (s := u) b
          rw [h2] at this
          exact hr this
        unfold hugeHook
        split
        · rw [Outcome.ok_bind]
          simp only
          rw [padAndReturn_again hb, h2]
          exact ⟨_, rfl⟩
        · rw [Outcome.ok_bind]
          simp only
          rw [h2]
          exact ⟨_, rfl⟩
      · rename_i hh
        rw [if_neg hh]
        obtain ⟨s1, h1, h2⟩ := Outcome.bind_eq_ok h
        rw [h1, Outcome.ok_bind]
        obtain ⟨⟨u, v⟩, h3, h4⟩ := Outcome.bind_eq_ok h2
        obtain ⟨u', h5, h6⟩ := Outcome.bind_eq_ok h4
        simp only at h5 h6
        have hv : v ≠ 0 := by
          rintro rfl
          rw [if_pos rfl] at h6
          cases h6
          exact hr rfl
        rw [if_neg hv] at h6
        rcases allocLockedH_total (H := H) h3 (fun h0 => hp u u' v h0 (by rw [if_neg hh]; exact ⟨s1, h1, h3, h5⟩)) with ⟨e1, h7⟩ | h7
        · rw [h7, Outcome.ok_bind]
          simp only
          rw [if_neg hv]
          have ht := allocHook_tail H u (v := v) (b := b) (n := N) hb
          rw [h5, Outcome.ok_bind] at ht
          obtain ⟨u2, h8, h9⟩ := Outcome.bind_eq_ok ht
          rw [h8, Outcome.ok_bind]
          have h9 := Outcome.ok.inj h9
          have h6 := Outcome.ok.inj h6
          have : padAndReturn u2 v b = (s', r) := h9.trans h6
          rw [this]
          exact ⟨_, rfl⟩
        · exact absurd h7 hv

/-! ## The light source -/

open OnNode

theorem salloc_total {C : Config} {pb : Nat} {s s' : CS Light} {A : AHeap} {O L : List (Nat × Nat)} {P : Res} {b n r : Nat} (H : Tab)
    (I : SInv pb s A O L P) (hb : GoodBound b) (hn : n ≠ 0) (hsz : PSize (reqSize b n))
    (h : allocAlign (lightSource C) s b n = .ok (s', r)) : ∃ e, allocAlignH H (lightSource C) s b n = .ok (s', r, e) := by
  rw [aligned_req hn] at hsz
  obtain ⟨hlt, hfit⟩ := psize_fits hsz
  have hal : alignedSize b n = n + (if 1 < b then b else 0) := by unfold alignedSize; split <;> omega
  have hb8 : b + 8 ≤ W64 := by
    have hM : MB2 = 2097152 := rfl
    split at hal <;> omega
  have hN : (if b > 1 then add64 n b else n) = alignedSize b n := by
    unfold alignedSize at hlt ⊢
    split
    · rw [if_pos (by omega)] at hlt
      exact add64_eq (by omega)
    · rfl
  have hr : r ≠ 0 := by
    rcases salloc_ok (C := C) I hb hn hlt hfit with ⟨_, h2⟩ | ⟨s2, d, A', L', h2, R⟩
    · rw [h] at h2; cases h2
    · rw [h] at h2
      cases h2
      exact R.nz
  refine allocAlignH_total hb8 h hr ?_
  intro u u' v hv G
  rw [hN] at G
  have hNz : alignedSize b n ≠ 0 := by omega
  have e2 := G.run I hNz hv
  have hw : u'.w = u.w := by
    unfold Got at G
    split at G
    · rw [G.2]
    · obtain ⟨_, _, _, g⟩ := G
      exact unlockIf_mem g
  have hvW : v < W64 := by
    unfold Got at G
    split at G
    · have := G.1
      rw [← requestMemH_er Tab.none] at this
      obtain ⟨_, g⟩ := er2_ok this
      exact requestMemH_lt g
    · obtain ⟨s1, _, g, _⟩ := G
      rw [allocLocked_eq Tab.none] at g
      obtain ⟨⟨s3, c⟩, g1, g2⟩ := Outcome.bind_eq_ok g
      split at g2
      · cases g2; decide
      · obtain ⟨_, g3⟩ := er2_ok g2
        exact takeH_lt g3
  have h00 : alignedSize 0 (alignedSize b n) = alignedSize b n := by
    rw [alignedSize, if_neg (by omega)]
  rcases salloc_ok (C := C) (b := 0) I (Or.inl (by omega)) hNz (by rw [h00]; exact hlt) (by rw [h00]; exact hfit) with
    ⟨_, h2⟩ | ⟨s2, d0, A0, L0, h2, R0⟩
  · rw [e2] at h2; cases h2
  rw [e2] at h2
  have h2 := Outcome.ok.inj h2
  simp only [Prod.mk.injEq] at h2
  obtain ⟨rfl, h3⟩ := h2
  have hst0 := R0.noPad (by omega)
  have hU0 : A0.Used d0 := (R0.used d0).2 (Or.inr rfl)
  have W0 := R0.inv.ch.wf
  have hrd := W0.has_range hU0.1
  have hup : d0.uptr = d0.addr + 16 := by unfold Ck.uptr Ck.off; rw [hst0]
  have hv0 : v = d0.addr + 15 := by
    rw [hup] at h3
    unfold chunkBody at h3
    rw [if_neg hv] at h3
    unfold add64 at h3
    omega
  have g := (chunk_read W0 R0.inv.ch.mem hU0.1).1
  rw [← hw, hv0]
  exact ⟨_, g⟩

theorem sfree_total {C : Config} {pb : Nat} {s : CS Light} {A : AHeap} {O K : List (Nat × Nat)} {P : Res} {c : Ck} (H : Tab)
    (I : SInv pb s A O K P) (hc : A.Used c) : ∃ s' e, chainFreeH H (lightSource C) C s c.uptr = .ok (s', e) := by
  obtain ⟨s', A', K', e, _⟩ := sfree_ok (C := C) I hc
  refine ⟨s', chainFreeH_total e ?_⟩
  intro v s1 h1 h2
  obtain ⟨g1, _⟩ := getChunkUnpadded_used I.ch.wf I.ch.mem hc
  have g1' : getChunkUnpadded s.w.mem c.uptr = .ok (c.addr + 15) := g1
  rw [g1'] at h1
  cases h1
  obtain ⟨_, m, _, _, _, _, _, _, _, hs⟩ := releaseH_ok (σ := Light) I.ch.wf hc s.c.noMerge H
  rw [lockIf_ok I.ch.dead I.ch.lock] at h2
  have h2 := Outcome.ok.inj h2
  subst h2
  obtain ⟨_, _, e1, _⟩ := hs { s with c := { s.c with lock := s.c.threadSafe } } I.ch.pool rfl I.ch.mem
  exact ⟨_, e1⟩

theorem ploopH_total {C : Config} {pb : Nat} {O : List (Nat × Nat)} {P : Res} (H : Tab) : ∀ {Q : List Ck} {s : CS Light} {A : AHeap}
    {K : List (Nat × Nat)} {p : Nat}, SInv pb s A O K P → QList s.w.mem p Q → (∀ k ∈ Q, A.Used k) → Q.Nodup →
    ∃ s' e, purgeLoopH H (lightSource C) C s p = .ok (s', e)
  | [], s, A, K, p, I, h, _, _ => by
    have h : p = 0 := h
    exact ⟨s, [], by rw [purgeLoopH, if_pos h]⟩
  | k :: l, s, A, K, p, I, h, hu, hnd => by
    have hnz : p ≠ 0 := fun h0 => by
      have := (QList.nz I.ch.wf h hu).1 h0
      simp at this
    obtain ⟨hp, h1, h2⟩ := h
    have hk := hu k List.mem_cons_self
    obtain ⟨s1, e, e1⟩ := sfree_total (C := C) H I hk
    obtain ⟨s1', A1, L1, e1', F⟩ := sfree_ok (C := C) I hk
    have hs1 : s1 = s1' := Outcome.ok.inj ((chainFreeH_er e1).symm.trans e1')
    subst hs1
    have hkl : k ∉ l := (List.nodup_cons.1 hnd).1
    have hne : ∀ j ∈ l, j ≠ k := fun j hj h => hkl (h ▸ hj)
    have S1 := F.step I
    have hq1 : QList s1.w.mem (readLE s.w.mem p 8) l := by
      refine h2.congr (fun j hj x a b => S1.frame x ?_)
      have := I.ch.room j (hu j (List.mem_cons_of_mem _ hj))
      exact Or.inr (Or.inr ⟨j, hu j (List.mem_cons_of_mem _ hj), hne j hj, a, by omega⟩)
    obtain ⟨s2, e3, e2⟩ := ploopH_total (C := C) H S1.inv hq1
      (fun j hj => (F.used j (hne j hj)).2 (hu j (List.mem_cons_of_mem _ hj))) (List.nodup_cons.1 hnd).2
    rw [purgeLoopH, if_neg hnz]
    have h1' : readLE s.w.mem (p + 8) 8 = k.uptr := by rw [h1, hp]
    rw [h1', e1, Outcome.ok_bind]
    simp only
    rw [e2, Outcome.ok_bind]
    exact ⟨_, _, rfl⟩

theorem purgeH_total {C : Config} {pb : Nat} {s : CS Light} {A : AHeap} {O K : List (Nat × Nat)} {P : Res} {Q : List Ck} {H : Tab}
    (hH : H.flush = false) (I : SInv pb s A O K P) (q : QAt s A Q) : ∃ s' e, purgeRfqH H (lightSource C) C s = .ok (s', e) := by
  have W := I.ch.wf
  unfold purgeRfqH
  rw [if_neg (by simp [I.ch.dead])]
  by_cases h0 : s.c.rfqHead = 0
  · exact ⟨s, [], by rw [if_pos h0]⟩
  · rw [if_neg h0]
    have hQ : Q ≠ [] := fun h => h0 ((QList.nz W q.list q.used).2 h)
    obtain ⟨s', e, e1⟩ := ploopH_total (C := C) H (I.setQ 0 0) (p := s.c.rfqHead) q.list q.used q.nodup
    rw [waitEnd_ok W q.list q.used hQ q.tail, Outcome.ok_bind]
    unfold flushHook
    rw [hH, if_neg (by simp), Outcome.ok_bind, e1, Outcome.ok_bind]
    exact ⟨_, _, rfl⟩

end MpcAlloc.Hooks
