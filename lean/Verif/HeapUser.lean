import Verif.HeapFree
import Verif.Spec

/-
Bytes owned by the user, bytes the allocator relies on, addition and removal of segments, padding.
-/

namespace MpcAlloc

/-- Byte that belongs to a block given to the user. -/
def AHeap.UserAt (A : AHeap) (x : Nat) : Prop := ∃ c, A.Used c ∧ c.uptr ≤ x ∧ x < c.addr + c.size

/-- Byte of a segment. -/
def AHeap.SegAt (A : AHeap) (x : Nat) : Prop := ∃ s ∈ A.segs, s.base ≤ x ∧ x < s.base + s.size

/-- Byte on which the allocator relies: list heads, and what is in the segments but not given to the user. -/
def AHeap.Meta (pb : Nat) (A : AHeap) (x : Nat) : Prop := PoolAt pb x ∨ (A.SegAt x ∧ ¬ A.UserAt x)

theorem AHeap.segAt_ext {pb : Nat} {A : AHeap} (W : A.WF pb) {s : Seg} (hs : s ∈ A.segs) {c : Ck}
    (hc : c ∈ s.ext) {x : Nat} (h1 : c.addr ≤ x) (h2 : x < c.addr + c.size) : A.SegAt x := by
  have := (W.seg s hs).ext_bounds hc
  exact ⟨s, hs, by omega, by omega⟩

theorem AHeap.WF.uptr_ge {pb : Nat} {A : AHeap} (_ : A.WF pb) (c : Ck) :
    c.addr + 16 ≤ c.uptr := by
  unfold Ck.uptr Ck.off; split <;> omega

theorem AHeap.WF.not_user_ext {pb : Nat} {A : AHeap} (W : A.WF pb) {s : Seg} (hs : s ∈ A.segs) {c : Ck}
    (hc : c ∈ s.ext) {x : Nat} (h1 : c.addr ≤ x) (h2 : x < c.addr + c.size)
    (h3 : x < c.uptr ∨ ¬ A.Used c) : ¬ A.UserAt x := by
  rintro ⟨d, hd, h4, h5⟩
  obtain ⟨⟨t, ht, hdt⟩, hdu⟩ := hd
  have := W.uptr_ge d
  by_cases e : c = d
  · subst e
    rcases h3 with h3 | h3
    · omega
    · exact h3 ⟨⟨t, ht, hdt⟩, hdu⟩
  · have := W.ext_disj hs ht hc (Seg.mem_ext hdt) e
    omega

theorem AHeap.WF.not_user_base {pb : Nat} {A : AHeap} (W : A.WF pb) {s : Seg} (hs : s ∈ A.segs) {x : Nat}
    (h1 : s.base ≤ x) (h2 : x < s.base + 32) : ¬ A.UserAt x := by
  rintro ⟨d, ⟨⟨t, ht, hd⟩, _⟩, h4, h5⟩
  have := W.uptr_ge d
  have b := (W.seg t ht).bounds hd
  have g := (W.seg t ht).ge
  have g' := (W.seg s hs).ge
  by_cases e : s = t
  · subst e; omega
  · have := W.seg_disj hs ht e; omega

/-- The representation depends only on the bytes the allocator relies on. -/
theorem MemOK.congr {pb : Nat} {A : AHeap} {h : Heap} {m' : Mem} (W : A.WF pb) (H : MemOK (stdPool pb) h A)
    (e : ∀ x, A.Meta pb x → m' x = h.mem x) : MemOK (stdPool pb) { h with mem := m' } A := by
  refine ⟨?_, ?_, H.status⟩
  · intro s hs
    have g := (W.seg s hs).ge
    refine (H.segs s hs).congr ?_ ?_
    · intro x h1 h2
      exact e x (Or.inr ⟨⟨s, hs, by omega, by omega⟩, W.not_user_base hs h1 (by omega)⟩)
    · intro c hc
      have hsz := (W.seg s hs).ext_size hc
      have key : ∀ x, c.addr ≤ x → x < c.uptr → m' x = h.mem x := by
        intro x h1 h2
        have : x < c.addr + c.size := by unfold Ck.uptr at h2; omega
        exact e x (Or.inr ⟨A.segAt_ext W hs hc h1 this, W.not_user_ext hs hc h1 this (Or.inl h2)⟩)
      have hu := W.uptr_ge c
      refine ⟨fun x h1 h2 => key x (by omega) (by omega), fun x h1 h2 => key x (by omega) (by omega), ?_⟩
      intro p hp x h1 h2
      have : c.uptr = c.addr + (24 + p) := by unfold Ck.uptr Ck.off; rw [hp]
      exact key x (by omega) (by omega)
  · intro i hi
    refine lists_frame (H.lists i hi) ?_ ?_
    · intro x h1 h2
      have : (stdPool pb).head i = pb + 32 * i := rfl
      exact e x (Or.inl ⟨by omega, by omega⟩)
    · intro c hc x h1 h2
      have hf := W.flFree i c hc
      obtain ⟨s, hs, hcs⟩ := W.flHas i c hc
      have g := ((W.seg s hs).chunks c hcs).ge
      refine e x (Or.inr ⟨A.segAt_ext W hs (Seg.mem_ext hcs) (by omega) (by omega),
        W.not_user_ext hs (Seg.mem_ext hcs) (by omega) (by omega) (Or.inr ?_)⟩)
      rintro ⟨_, p, hp⟩
      rw [hf] at hp; simp at hp

/-- Client bytes are left alone by the allocator. -/
theorem AHeap.WF.user_quiet {pb : Nat} {A : AHeap} (W : A.WF pb) {x : Nat} (h : A.UserAt x) : Quiet pb A x := by
  obtain ⟨c, ⟨hc, p, hp⟩, h1, h2⟩ := h
  have hu := W.uptr_ge c
  refine ⟨?_, ?_, ?_⟩
  · rintro ⟨h3, h4⟩
    have := W.has_pool hc
    omega
  · rintro ⟨d, hd, hf, h3, h4⟩
    by_cases e : c = d
    · subst e; rw [hf] at hp; simp at hp
    · have := W.has_disj hc hd e; omega
  · rintro ⟨s, hs, d, hd, h3, h4⟩
    obtain ⟨t, ht, hct⟩ := hc
    have := ((W.seg s hs).ext_size hd).1
    by_cases e : c = d
    · subst e; omega
    · have := W.ext_disj ht hs (Seg.mem_ext hct) hd e; omega

/-- Bytes outside of the chain memory are left alone. -/
theorem AHeap.WF.outside_quiet {pb : Nat} {A : AHeap} (W : A.WF pb) {x : Nat} (h1 : ¬ PoolAt pb x)
    (h2 : ¬ A.SegAt x) : Quiet pb A x := by
  refine ⟨h1, ?_, ?_⟩
  · rintro ⟨c, ⟨s, hs, hc⟩, _, h3, h4⟩
    exact h2 (A.segAt_ext W hs (Seg.mem_ext hc) h3 h4)
  · rintro ⟨s, hs, c, hc, h3, h4⟩
    have := ((W.seg s hs).ext_size hc).1
    exact h2 (A.segAt_ext W hs hc h3 (by omega))

/-- The 32 bytes of the macro bloc header are left alone. -/
theorem AHeap.WF.base_quiet {pb : Nat} {A : AHeap} (W : A.WF pb) {s : Seg} (hs : s ∈ A.segs) {x : Nat}
    (h1 : s.base ≤ x) (h2 : x < s.base + 32) : Quiet pb A x := by
  have g' := (W.seg s hs).ge
  have key : ∀ t ∈ A.segs, ∀ c ∈ t.ext, ¬ (c.addr ≤ x ∧ x < c.addr + c.size) := by
    intro t ht c hc
    have b := (W.seg t ht).ext_bounds hc
    have g := (W.seg t ht).ge
    by_cases e : s = t
    · subst e; omega
    · have := W.seg_disj hs ht e; omega
  refine ⟨?_, ?_, ?_⟩
  · rintro ⟨h3, h4⟩
    have := W.pool s hs
    omega
  · rintro ⟨c, ⟨t, ht, hc⟩, _, h3, h4⟩
    exact key t ht c (Seg.mem_ext hc) ⟨h3, h4⟩
  · rintro ⟨t, ht, c, hc, h3, h4⟩
    have := ((W.seg t ht).ext_size hc).1
    exact key t ht c hc ⟨h3, by omega⟩

theorem shape_segAt {A A' : AHeap} (h : A'.shape = A.shape) (x : Nat) : A'.SegAt x ↔ A.SegAt x := by
  have key : ∀ B : AHeap, B.SegAt x ↔ ∃ p ∈ B.shape, p.1 ≤ x ∧ x < p.1 + p.2 := by
    intro B
    unfold AHeap.SegAt AHeap.shape
    simp
  rw [key, key, h]

/-! ### New segment -/

/-- Conditions on a new segment. -/
structure FreshSeg (pb : Nat) (A : AHeap) (b sz : Nat) : Prop where
  pos : 0 < b
  dvdB : 16 ∣ b
  dvdS : 16 ∣ sz
  ge : 96 ≤ sz
  lt : b + sz < W64
  lt56 : sz < W56
  pool : b + sz ≤ pb ∨ pb + 1536 ≤ b
  disj : ∀ s ∈ A.segs, s.base + s.size ≤ b ∨ b + sz ≤ s.base

/-- Context of the new segment: its only chunk is the hole. -/
def addCtx (A : AHeap) (b sz : Nat) : Ctx := ⟨A.segs, [], b, sz, [], []⟩
/-- The chunk of the new segment. -/
def addCk (b sz : Nat) : Ck := ⟨b + 32, sz - 48, .used none⟩

theorem wf_addSeg {pb : Nat} {A : AHeap} {b sz : Nat} (W : A.WF pb) (F : FreshSeg pb A b sz) :
    ((addCtx A b sz).fill [addCk b sz] A.fl).WF pb := by
  have hge := F.ge
  have hdS := F.dvdS
  have hcw : (addCk b sz).WF :=
    ⟨by simp only [addCk]; omega, by simp only [addCk]; omega, by show 16 ≤ sz - 48; omega, by simp [addCk]⟩
  have hseg : ((addCtx A b sz).seg [addCk b sz]).WF := by
    refine ⟨F.pos, F.dvdB, F.dvdS, F.ge, F.lt, F.lt56, ?_, ?_⟩
    · refine ⟨rfl, ?_⟩
      show b + 32 + (sz - 48) = b + sz - 16
      omega
    · intro c hc
      simp only [Ctx.seg, addCtx, List.nil_append, List.append_nil, List.mem_singleton] at hc
      subst hc; exact hcw
  have hmem : ∀ s, s ∈ ((addCtx A b sz).fill [addCk b sz] A.fl).segs ↔
      s ∈ A.segs ∨ s = (addCtx A b sz).seg [addCk b sz] := by
    intro s; simp [Ctx.fill, addCtx]
  have hhas : ∀ x, ((addCtx A b sz).fill [addCk b sz] A.fl).Has x ↔ A.Has x ∨ x = addCk b sz := by
    intro x
    rw [Ctx.has]
    simp [Ctx.Rest, addCtx, AHeap.Has]
    grind
  refine ⟨?_, ?_, ?_, W.pbpos, W.pblt, W.flFree, ?_, W.flClass, ?_, W.flNodup⟩
  · intro s hs
    rcases (hmem s).1 hs with h | rfl
    · exact W.seg s h
    · exact hseg
  · show List.Pairwise _ (A.segs ++ [_])
    rw [List.pairwise_append]
    refine ⟨W.disj, by simp, ?_⟩
    intro s hs t ht
    rw [List.mem_singleton] at ht; subst ht
    exact F.disj s hs
  · intro s hs
    rcases (hmem s).1 hs with h | rfl
    · exact W.pool s h
    · exact F.pool
  · intro i c hc; exact (hhas c).2 (Or.inl (W.flHas i c hc))
  · intro c hc hf
    rcases (hhas c).1 hc with h | rfl
    · exact W.flAll c h hf
    · simp [addCk] at hf

theorem addSeg_mem {pb : Nat} {A : AHeap} {b sz : Nat} {h : Heap} {m' : Mem} (W : A.WF pb)
    (F : FreshSeg pb A b sz) (H : MemOK (stdPool pb) h A)
    (e : ∀ x, x < b ∨ b + sz ≤ x → m' x = h.mem x)
    (h1 : hSize m' b = sz) (h2 : (m' (b + 15)).toNat = 133)
    (h3 : HdrAt m' (b + 32) (sz - 48) 0 1) (h4 : HdrAt m' (b + sz - 16) 0 (sz - 48) 1) :
    MemOK (stdPool pb) { h with mem := m' } ((addCtx A b sz).fill [addCk b sz] A.fl) := by
  have H' : MemOK (stdPool pb) { h with mem := m' } A := by
    refine H.congr W ?_
    intro x hx
    apply e
    rcases hx with ⟨h5, h6⟩ | ⟨⟨s, hs, h5, h6⟩, _⟩
    · have := F.pool; omega
    · have := F.disj s hs; omega
  refine ⟨?_, H'.lists, H'.status⟩
  intro s hs
  simp only [Ctx.fill, addCtx, List.mem_append, List.mem_singleton] at hs
  rcases hs with hs | rfl
  · exact H'.segs s hs
  · refine ⟨h1, h2, ?_⟩
    simp only [Ctx.seg, Seg.ext, Seg.stop, List.nil_append, List.append_nil, List.cons_append, ChunksMem, addCk]
    exact ⟨⟨h3, by simp⟩, ⟨h4, by simp⟩, trivial⟩

/-! ### Removal of a segment -/

/-- Heap without a segment. -/
def delSeg (K : Ctx) (fl : Nat → List Ck) : AHeap := ⟨K.S1 ++ K.S2, fl⟩

theorem wf_delSeg {pb : Nat} {K : Ctx} {m : Ck} {fl : Nat → List Ck} (W : (K.fill [m] fl).WF pb)
    (hm : m.st ≠ .free) (hp : K.p = []) (hq : K.q = []) : (delSeg K fl).WF pb := by
  have hmem : ∀ s ∈ (delSeg K fl).segs, s ∈ (K.fill [m] fl).segs := by
    intro s hs; simp [delSeg, Ctx.fill] at hs ⊢; grind
  have hhas : ∀ x, (delSeg K fl).Has x → (K.fill [m] fl).Has x := by
    rintro x ⟨s, hs, hx⟩; exact ⟨s, hmem s hs, hx⟩
  refine ⟨fun s hs => W.seg s (hmem s hs), ?_, fun s hs => W.pool s (hmem s hs), W.pbpos, W.pblt, W.flFree,
    ?_, W.flClass, fun c hc hf => W.flAll c (hhas c hc) hf, W.flNodup⟩
  · have := W.disj
    refine List.Pairwise.sublist ?_ this
    simp [delSeg, Ctx.fill]
  · intro i c hc
    have h1 := W.flHas i c hc
    have h2 := W.flFree i c hc
    rw [K.has] at h1
    rcases h1 with h1 | h1
    · rw [List.mem_singleton] at h1; subst h1; exact absurd h2 hm
    · unfold Ctx.Rest at h1
      rw [hp, hq] at h1
      simp only [List.not_mem_nil, false_or] at h1
      obtain ⟨s, hs, hx⟩ := h1
      exact ⟨s, by simpa [delSeg] using hs, hx⟩

theorem delSeg_mem {pb : Nat} {K : Ctx} {m : Ck} {fl : Nat → List Ck} {h : Heap}
    (H : MemOK (stdPool pb) h (K.fill [m] fl)) : MemOK (stdPool pb) h (delSeg K fl) :=
  ⟨fun s hs => H.segs s (by simp [delSeg, Ctx.fill] at hs ⊢; grind), H.lists, H.status⟩

/-! ### Padding -/

theorem pow2_fit {a b : Nat} (ha : 16 ∣ a) (hb : ∃ k, b = 2 ^ k) (hne : (a + 16) % b ≠ 0) :
    alignUp (a + 24) b ≤ a + 16 + b := by
  obtain ⟨k, rfl⟩ := hb
  have h16 : 16 ∣ 2 ^ k := by
    by_cases hk : k ≤ 4
    · exfalso
      apply hne
      have : 2 ^ k ∣ 16 := by
        have : (16 : Nat) = 2 ^ 4 := by norm_num
        rw [this]; exact Nat.pow_dvd_pow 2 hk
      exact Nat.mod_eq_zero_of_dvd (Nat.dvd_add (Nat.dvd_trans this ha) this)
    · have : (16 : Nat) = 2 ^ 4 := by norm_num
      rw [this]; exact Nat.pow_dvd_pow 2 (by omega)
  generalize hB : 2 ^ k = B at *
  have hBpos : 0 < B := by rw [← hB]; positivity
  have h1 : (a + 16) % B < B := Nat.mod_lt _ hBpos
  have h2 : 16 ∣ (a + 16) % B := (Nat.dvd_mod_iff h16).2 (by omega)
  have h3 : (a + 24) % B = (a + 16) % B + 8 := by
    have : a + 24 = (a + 16) + 8 := by omega
    rw [this, Nat.add_mod, Nat.mod_eq_of_lt (a := 8) (by omega), Nat.mod_eq_of_lt]
    omega
  unfold alignUp
  split <;> omega

/-- Abstract effect of the padding: `d` becomes `d'`. -/
structure PadRel (pb : Nat) (A : AHeap) (d : Ck) (b n : Nat) (d' : Ck) (A' : AHeap) : Prop where
  wf : A'.WF pb
  addr : d'.addr = d.addr
  size : d'.size = d.size
  used : ∀ x, A'.Used x ↔ (A.Used x ∧ x ≠ d) ∨ x = d'
  usedD : A'.Used d'
  fit : d'.uptr + n ≤ d'.addr + d'.size
  noPad : b ≤ 1 → d'.st = .used none
  align : 1 < b → b ∣ d'.uptr
  shape : A'.shape = A.shape
  noAdj : A.NoAdj → A'.NoAdj
  free : ∀ x, A'.FreeAt x ↔ A.FreeAt x
  hdr : ∀ x, A'.HdrIn x ↔ A.HdrIn x
  rest : ∀ x : Ck, x.st = .free → (A'.Has x ↔ A.Has x)
  ptr : d'.uptr = if b ≤ 1 ∨ (d.addr + 16) % b = 0 then d.addr + 16 else alignUp (d.addr + 24) b
  lists : A'.fl = A.fl

/-- The padded header, if the boundary asks for one, is in place. -/
def PadDone (m : Mem) (d : Ck) (b : Nat) : Prop :=
  b ≤ 1 ∨ (d.addr + 16) % b = 0 ∨
    PadAt m (d.addr + 16 + (alignUp (d.addr + 24) b - (d.addr + 24))) (alignUp (d.addr + 24) b - (d.addr + 24))

theorem padReturn_both {σ : Type} {pb : Nat} {A : AHeap} {d : Ck} {b n : Nat} (W : A.WF pb) (hd : A.Used d)
    (hst : d.st = .used none) (hb : GoodBound b) (hsz : n + (if 1 < b then b else 0) + 16 ≤ d.size) :
    ∃ d' A', PadRel pb A d b n d' A' ∧ d'.uptr ≠ 0 ∧
      (∀ s : CS σ, MemOK (stdPool pb) s.heap A → ∃ m, padAndReturn s (d.addr + 15) b = (s.setMem m, d'.uptr) ∧
        MemOK (stdPool pb) (s.setMem m).heap A' ∧ PadDone m d b ∧
        ∀ x, (x < d.addr + 16 ∨ d.addr + d.size ≤ x) → m x = s.w.mem x) ∧
      ∀ h, MemOK (stdPool pb) h A → PadDone h.mem d b → MemOK (stdPool pb) h A' := by
  have hdw := W.has_wf hd.1
  have hr := W.has_range hd.1
  have hdvd : 16 ∣ d.addr := by
    obtain ⟨s, hs, hc⟩ := hd.1
    exact (W.seg s hs).addr_dvd hc
  have hup : d.uptr = d.addr + 16 := by unfold Ck.uptr Ck.off; rw [hst]
  have hlv : d.addr + 15 ≠ 0 := by omega
  by_cases hcase : b ≤ 1 ∨ (d.addr + 16) % b = 0
  · refine ⟨d, A, ⟨W, rfl, rfl, ?_, hd, ?_, fun _ => hst, ?_, rfl, id, fun _ => Iff.rfl, fun _ => Iff.rfl,
      fun _ _ => Iff.rfl, by rw [if_pos hcase, hup], rfl⟩,
      by omega, ?_, fun h hM _ => hM⟩
    · intro x; grind
    · omega
    · intro h
      rcases hcase with h' | h'
      · omega
      · rw [hup]; exact Nat.dvd_of_mod_eq_zero h'
    · intro s hM
      refine ⟨s.w.mem, ?_, hM, hcase.imp_right Or.inl, fun _ _ => rfl⟩
      unfold padAndReturn
      have : (if b > 1 then setupChunkPadded s.w.mem (d.addr + 15) b else (s.w.mem, d.addr + 15)) =
          (s.w.mem, d.addr + 15) := by
        split
        · unfold setupChunkPadded
          rw [chunkBody_eq (by omega)]
          rw [if_neg (by omega)]
        · rfl
      rw [this]
      simp only
      rw [if_neg hlv, chunkBody_eq (by omega), hup]
  · have hb1 : 1 < b := by omega
    have hne : (d.addr + 16) % b ≠ 0 := by omega
    rw [if_pos hb1] at hsz
    have hpow : ∃ k, b = 2 ^ k := by
      rcases hb with h | h
      · omega
      · exact h
    have hfit := pow2_fit hdvd hpow hne
    have hge := alignUp_ge (d.addr + 24) b
    obtain ⟨K, hA⟩ := Ctx.of_has hd.1
    generalize A.fl = fl at hA
    subst hA
    have hnr := Ctx.not_rest W (c := d) (by simp)
    generalize hU : alignUp (d.addr + 24) b = U at *
    have W' := wf_pad (p := some (U - (d.addr + 24))) W (by rw [hst]; simp)
      (by intro q hq; cases hq; omega)
    have hup' : ({ d with st := .used (some (U - (d.addr + 24))) } : Ck).uptr = U := by
      simp only [Ck.uptr, Ck.off]; omega
    refine ⟨{ d with st := .used (some (U - (d.addr + 24))) }, _,
      ⟨W', rfl, rfl, ?_, ⟨K.has_of_mem _ (by simp), _, rfl⟩, ?_, fun h => by omega, ?_, K.shape _ _ _ _, ?_, ?_, ?_, ?_, ?_, rfl⟩,
      by omega, ?_, ?_⟩
    · intro x
      rw [K.used, K.used]
      constructor
      · rintro ⟨hx | hx, hp⟩
        · exact Or.inr (by simpa using hx)
        · exact Or.inl ⟨⟨Or.inr hx, hp⟩, by rintro rfl; exact hnr hx⟩
      · rintro (⟨⟨hx | hx, hp⟩, hne⟩ | rfl)
        · rw [List.mem_singleton] at hx; exact absurd hx hne
        · exact ⟨Or.inr hx, hp⟩
        · exact ⟨Or.inl (by simp), _, rfl⟩
    · rw [hup']; show U + n ≤ d.addr + d.size; omega
    · intro _; rw [hup', ← hU]; exact alignUp_dvd (by omega)
    · intro h
      rw [K.noAdj] at h ⊢
      exact ⟨isChain_use h.1 (by simp), h.2⟩
    · intro x
      constructor
      · intro h
        rcases Ctx.freeAt (cs := [d]) (fl := fl) h with h | ⟨y, hy, hf, _⟩
        · exact h
        · rw [List.mem_singleton] at hy; subst hy; simp at hf
      · intro h
        rcases Ctx.freeAt (cs := [{ d with st := .used (some (U - (d.addr + 24))) }]) (fl := fl) h with
          h | ⟨y, hy, hf, _⟩
        · exact h
        · rw [List.mem_singleton] at hy; subst hy; rw [hst] at hf; simp at hf
    · intro x
      have e1 : ∀ c1 c2 : Ck, c1.addr = c2.addr → (K.fill [c1] fl).HdrIn x → (K.fill [c2] fl).HdrIn x := by
        intro c1 c2 he h
        rcases Ctx.hdrIn (cs := [c2]) (fl := fl) h with h | ⟨y, hy, h1, h2⟩
        · exact h
        · rw [List.mem_singleton] at hy; subst hy
          exact ⟨_, K.seg_mem _ _, c2, by simp [Seg.ext, Ctx.seg], by omega, by omega⟩
      exact ⟨e1 _ _ rfl, e1 _ _ rfl⟩
    · intro x hx
      rw [K.has, K.has]
      constructor
      · rintro (h | h)
        · rw [List.mem_singleton] at h; subst h; simp at hx
        · exact Or.inr h
      · rintro (h | h)
        · rw [List.mem_singleton] at h; subst h; rw [hst] at hx; simp at hx
        · exact Or.inr h
    · rw [hup', if_neg hcase, hU]
    · intro s hM
      have hp := pad_ok W hst hM hb1 hne (by rw [hU]; omega)
      rw [hU] at hp
      obtain ⟨m', e1, M1, P1, f1⟩ := hp
      refine ⟨m', ?_, M1, Or.inr (Or.inr (by rw [hU]; exact P1)), ?_⟩
      · unfold padAndReturn
        rw [if_pos hb1]
        have e1' : setupChunkPadded s.w.mem (d.addr + 15) b = (m', U - 1) := e1
        rw [e1']
        simp only
        have : U - 1 = (U - 16) + 15 := by omega
        rw [if_neg (by omega), this, chunkBody_eq (by omega), hup']
        congr 1
        omega
      · exact f1
    · intro h hM hP
      refine pad_already W hst hM ?_
      rcases hP with h | h | h
      · omega
      · omega
      · rw [hU] at h; exact h

theorem padReturn_ok {σ : Type} {pb : Nat} {A : AHeap} {d : Ck} {b n : Nat} (W : A.WF pb) (hd : A.Used d)
    (hst : d.st = .used none) (hb : GoodBound b) (hsz : n + (if 1 < b then b else 0) + 16 ≤ d.size) :
    ∃ d' A', PadRel pb A d b n d' A' ∧ d'.uptr ≠ 0 ∧
      ∀ s : CS σ, MemOK (stdPool pb) s.heap A → ∃ m, padAndReturn s (d.addr + 15) b = (s.setMem m, d'.uptr) ∧
        MemOK (stdPool pb) (s.setMem m).heap A' ∧
        ∀ x, (x < d.addr ∨ d.addr + d.size ≤ x) → m x = s.w.mem x := by
  obtain ⟨d', A', R, hne, hs, _⟩ := padReturn_both (σ := σ) W hd hst hb hsz
  refine ⟨d', A', R, hne, fun s hM => ?_⟩
  obtain ⟨m, e, M, _, f⟩ := hs s hM
  exact ⟨m, e, M, fun x hx => f x (by omega)⟩

end MpcAlloc
