import Verif.HeapAlloc

/-
Effect of freeing a chunk on the abstract heap: merge, then insertion in a free list.
-/

namespace MpcAlloc

/-- The hole can be filled with a free chunk without creating two neighbouring free chunks. -/
def Ctx.Fence (K : Ctx) : Prop :=
  (∀ l d, K.p = l ++ [d] → d.st ≠ .free) ∧ (∀ l d, K.q = d :: l → d.st ≠ .free)

/-- The lists without the chunks that begin inside of `m`. -/
def flOut (fl : Nat → List Ck) (m : Ck) : Nat → List Ck :=
  fun i => (fl i).filter (fun x => decide (x.addr < m.addr ∨ m.addr + m.size ≤ x.addr))

/-- Abstract effect of merging `c` with its free neighbours: `m` replaces them, still marked used. -/
structure MergeRel (pb : Nat) (A : AHeap) (c : Ck) (K : Ctx) (m : Ck) (fl : Nat → List Ck) : Prop where
  wf : (K.fill [m] fl).WF pb
  st : m.st = .used none
  le : m.addr ≤ c.addr
  ge : c.addr + c.size ≤ m.addr + m.size
  used : ∀ x, (K.Rest x ∧ ∃ p, x.st = .used p) ↔ A.Used x ∧ x ≠ c
  shape : (K.fill [m] fl).shape = A.shape
  fence : K.Fence
  noAdj : A.NoAdj → (K.fill [m] fl).NoAdj
  free : ∀ x, (K.fill [m] fl).FreeAt x → A.FreeAt x
  hdr : ∀ x, (K.fill [m] fl).HdrIn x → A.HdrIn x
  ext : ∀ x, m.addr ≤ x → x < m.addr + m.size → A.FreeAt x ∨ (c.addr ≤ x ∧ x < c.addr + c.size)
  lists : fl = flOut A.fl m

theorem isChain_fuse {p F G q : List Ck} {c m : Ck} (h : (p ++ F ++ [c] ++ (G ++ q)).IsChain NotBothFree)
    (hm : m.st ≠ .free) : (p ++ [m] ++ q).IsChain NotBothFree := by
  simp only [List.append_assoc, List.isChain_append, List.cons_append, List.nil_append,
    List.isChain_cons] at h ⊢
  refine ⟨h.1, ⟨fun y _ hh => hm hh.1, h.2.1.2.1.2.2.1⟩, ?_⟩
  intro x hx y hy hh
  simp at hy
  subst hy
  exact hm hh.2

theorem merge_rel {pb : Nat} {A : AHeap} {c : Ck} (W : A.WF pb) (hcA : A.Used c) :
    ∃ K m fl, MergeRel pb A c K m fl ∧
      ∀ s, MemOK (stdPool pb) s A → ∃ s', mergeChunk (stdPool pb) s (c.addr + 15) = .ok (s', m.addr + 15) ∧
        MemOK (stdPool pb) s' (K.fill [m] fl) ∧
        ∀ x, Quiet pb A x → (x < c.addr ∨ c.addr + c.size ≤ x) → s'.mem x = s.mem x := by
  obtain ⟨hcH, pad, hcu⟩ := hcA
  have hcf : c.st ≠ .free := by rw [hcu]; simp
  obtain ⟨K, hA⟩ := Ctx.of_has hcH
  generalize A.fl = fl at hA
  subst hA
  obtain ⟨p', F, hp, hF, hp'⟩ := exists_run_left K.p
  obtain ⟨G, q', hq, hG, hq'⟩ := exists_run_right K.q
  obtain ⟨S1, S2, B, Sz, p, q⟩ := K
  simp only at hp hq
  subst hp hq
  have W0 := W
  obtain ⟨a0, e0, t1, t2, t3⟩ := Ctx.hole W
  obtain ⟨a, ha, t1'⟩ := tiles_append.1 t1
  simp only [List.append_assoc] at t3
  obtain ⟨e, t3', _⟩ := tiles_append.1 t3
  have he : Tiles a (F ++ [c] ++ G) e :=
    tiles_append.2 ⟨e0, tiles_append.2 ⟨a0, t1', t2⟩, t3'⟩
  have key := merge_ok (K := ⟨S1, S2, B, Sz, p' ++ F, G ++ q'⟩) W hcf hF hG hp' hq' ha he
  simp only at key
  obtain ⟨Wm, hm⟩ := key
  have ta : a ≤ c.addr := by have := tiles_le t1'; have := t2.1; omega
  have tc : c.addr + c.size ≤ e := by
    have := tiles_le t3'
    have h1 := t2.1
    have h2 := t2.2
    simp only [Tiles] at h2
    omega
  have hce := (W.has_wf hcH).ge
  refine ⟨⟨S1, S2, B, Sz, p', q'⟩, ⟨a, e - a, .used none⟩, flDel fl (F ++ G),
    ⟨Wm, rfl, ta, by simp only; omega, ?_, ?_, ⟨hp', hq'⟩, ?_, ?_, ?_, ?_, ?_⟩, ?_⟩
  · intro x
    have hnr := Ctx.not_rest W (c := c) (by simp)
    rw [Ctx.used]
    constructor
    · rintro ⟨hx, hxu⟩
      refine ⟨⟨Or.inr ?_, hxu⟩, ?_⟩
      · unfold Ctx.Rest at hx ⊢
        simp only [List.mem_append] at hx ⊢
        grind
      · rintro rfl
        apply hnr
        unfold Ctx.Rest at hx ⊢
        simp only [List.mem_append] at hx ⊢
        grind
    · rintro ⟨⟨hx | hx, hxu⟩, hne⟩
      · rw [List.mem_singleton] at hx; exact absurd hx hne
      · refine ⟨?_, hxu⟩
        obtain ⟨q0, hq0⟩ := hxu
        have n1 : x ∉ F := fun h => by have := hF x h; rw [hq0] at this; cases this
        have n2 : x ∉ G := fun h => by have := hG x h; rw [hq0] at this; cases this
        unfold Ctx.Rest at hx ⊢
        simp only [List.mem_append] at hx ⊢
        grind
  · simp [AHeap.shape, Ctx.fill, Ctx.seg]
  · intro h
    rw [Ctx.noAdj] at h ⊢
    exact ⟨isChain_fuse h.1 (by simp), h.2⟩
  · rintro x ⟨d, hd, hf, h1, h2⟩
    refine ⟨d, ?_, hf, h1, h2⟩
    rw [Ctx.has] at hd ⊢
    rcases hd with hd | hd
    · rw [List.mem_singleton] at hd; subst hd; simp at hf
    · right
      unfold Ctx.Rest at hd ⊢
      simp only [List.mem_append] at hd ⊢
      grind
  · intro x hx
    rw [show ({ S1 := S1, S2 := S2, base := B, size := Sz, p := p' ++ F, q := G ++ q' } : Ctx).fill [c] fl =
      ({ S1 := S1, S2 := S2, base := B, size := Sz, p := p', q := q' } : Ctx).fill (F ++ [c] ++ G) fl by
        simp [Ctx.fill, Ctx.seg]]
    rcases Ctx.hdrIn (cs := F ++ [c] ++ G) (fl := fl) hx with h | ⟨d, hd, h1, h2⟩
    · exact h
    · rw [List.mem_singleton] at hd; subst hd
      simp only at h1 h2
      cases hl : F ++ [c] ++ G with
      | nil => simp at hl
      | cons y l =>
        rw [hl] at he
        have hy := he.1
        refine ⟨_, Ctx.seg_mem _ _ _, y, ?_, by omega, by omega⟩
        simp [Seg.ext, Ctx.seg]
  · intro x h1 h2
    simp only at h1 h2
    obtain ⟨d, hd, h3, h4⟩ := tiles_cover _ _ he h1 (by omega)
    simp only [List.mem_append, List.mem_singleton] at hd
    rcases hd with (hd | rfl) | hd
    · left
      refine ⟨d, ?_, hF d hd, h3, h4⟩
      rw [Ctx.has]; right; unfold Ctx.Rest; simp [hd]
    · exact Or.inr ⟨h3, h4⟩
    · left
      refine ⟨d, ?_, hG d hd, h3, h4⟩
      rw [Ctx.has]; right; unfold Ctx.Rest; simp [hd]
  · funext i
    unfold flDel flOut
    refine List.filter_congr (fun x hx => ?_)
    simp only [decide_eq_decide]
    have hxH := W.flHas i x hx
    have hxw := (W.has_wf hxH).ge
    constructor
    · intro hn
      by_contra hcon
      obtain ⟨d, hd, h3, h4⟩ := tiles_cover _ _ he (x := x.addr) (by omega) (by omega)
      have hdH : (Ctx.fill ⟨S1, S2, B, Sz, p' ++ F, G ++ q'⟩ [c] fl).Has d := by
        rw [Ctx.has]
        simp only [List.mem_append, List.mem_singleton] at hd
        unfold Ctx.Rest
        rcases hd with (hd | hd) | hd <;> simp [hd]
      have hdx : d = x := by
        by_contra hne
        have := W.has_disj hdH hxH hne
        omega
      rw [hdx] at hd
      have hxf : x.st = .free := W.flFree i x hx
      simp only [List.mem_append, List.mem_singleton] at hd hn
      rcases hd with (hd | hd) | hd
      · exact hn (Or.inl hd)
      · rw [hd] at hxf; exact hcf hxf
      · exact hn (Or.inr hd)
    · intro hr hn
      have hm' : x ∈ F ++ [c] ++ G := by
        simp only [List.mem_append, List.mem_singleton] at hn ⊢
        rcases hn with hn | hn
        · exact Or.inl (Or.inl hn)
        · exact Or.inr hn
      have := tiles_mem he hm'
      omega
  · intro s hM
    obtain ⟨s', e1, M1, f1⟩ := hm s hM
    exact ⟨s', e1, M1, fun x hq hx => f1 x hq.1 hq.2.1 hq.2.2 hx⟩

theorem isChain_fence {p q : List Ck} {m : Ck} (h : (p ++ [m] ++ q).IsChain NotBothFree)
    (h1 : ∀ l d, p = l ++ [d] → d.st ≠ .free) (h2 : ∀ l d, q = d :: l → d.st ≠ .free) (m' : Ck) :
    (p ++ [m'] ++ q).IsChain NotBothFree := by
  simp only [List.append_assoc, List.isChain_append, List.cons_append, List.nil_append,
    List.isChain_cons] at h ⊢
  refine ⟨h.1, ⟨fun y hy hh => ?_, h.2.1.2⟩, ?_⟩
  · cases q with
    | nil => simp at hy
    | cons z q => simp at hy; subst hy; exact h2 _ _ rfl hh.2
  · intro x hx y _ hh
    obtain ⟨l, rfl⟩ := List.getLast?_eq_some_iff.1 hx
    exact h1 _ _ rfl hh.1

/-- Abstract effect of putting the used chunk `m` in a free list. -/
structure InsertRel (pb : Nat) (K : Ctx) (m : Ck) (fl : Nat → List Ck) (b : Bool) (A' : AHeap) : Prop where
  wf : A'.WF pb
  used : ∀ x, A'.Used x ↔ (K.Rest x ∧ ∃ p, x.st = .used p)
  shape : A'.shape = (K.fill [m] fl).shape
  has : A'.Has m.mkFree
  noAdj : K.Fence → (K.fill [m] fl).NoAdj → A'.NoAdj
  free : ∀ x, A'.FreeAt x → (K.fill [m] fl).FreeAt x ∨ (m.addr ≤ x ∧ x < m.addr + m.size)
  all : ∀ x, A'.Has x → x = m.mkFree ∨ K.Rest x
  lists : ∃ j, IsStoreClass m.size j ∧ A'.fl = updFl fl j (insAt b (fl j) m.mkFree)

theorem insert_rel {pb : Nat} {K : Ctx} {m : Ck} {fl : Nat → List Ck} (W : (K.fill [m] fl).WF pb)
    (hm : m.st ≠ .free) (b : Bool) :
    ∃ A', InsertRel pb K m fl b A' ∧
      ∀ s, MemOK (stdPool pb) s (K.fill [m] fl) → ∃ s', freeListInsert (stdPool pb) s m.addr b = .ok s' ∧
        MemOK (stdPool pb) s' A' ∧
        ∀ x, ¬ PoolAt pb x → ¬ (K.fill [m] fl).FreeAt x → (x < m.addr ∨ m.addr + m.size ≤ x) →
          s'.mem x = s.mem x := by
  have hmH := K.has_of_mem fl (cs := [m]) (c := m) (by simp)
  have hr := W.has_range hmH
  obtain ⟨j, hj⟩ := storeClass_exists (size := m.size) (W.has_wf hmH).ge (by omega)
  have W' := wf_insAt W hm hj b
  refine ⟨_, ⟨W', ?_, K.shape _ _ _ _, K.has_of_mem _ (by simp), ?_, ?_, ?_, ⟨j, hj, rfl⟩⟩, fun s hM => freeListInsert_ok W hm hj hM⟩
  · intro x
    rw [K.used]
    constructor
    · rintro ⟨hx | hx, hp⟩
      · rw [List.mem_singleton] at hx; subst hx; simp [Ck.mkFree] at hp
      · exact ⟨hx, hp⟩
    · rintro ⟨hx, hp⟩
      exact ⟨Or.inr hx, hp⟩
  · rintro ⟨f1, f2⟩ h
    rw [K.noAdj] at h ⊢
    exact ⟨isChain_fence h.1 f1 f2 _, h.2⟩
  · intro x hx
    rcases Ctx.freeAt (cs := [m]) (fl := fl) hx with h | ⟨d, hd, _, h1, h2⟩
    · exact Or.inl h
    · rw [List.mem_singleton] at hd; subst hd
      exact Or.inr ⟨h1, h2⟩
  · intro x hx
    rw [K.has, List.mem_singleton] at hx
    exact hx

/-- Abstract effect of freeing the used chunk `c` (with or without merge). -/
structure FreeRel (pb : Nat) (A : AHeap) (c : Ck) (A' : AHeap) : Prop where
  wf : A'.WF pb
  used : ∀ x, A'.Used x ↔ A.Used x ∧ x ≠ c
  shape : A'.shape = A.shape
  cover : ∃ d, A'.Has d ∧ d.st = .free ∧ d.addr ≤ c.addr ∧ c.addr + c.size ≤ d.addr + d.size
  free : ∀ x, A'.FreeAt x → A.FreeAt x ∨ (c.addr ≤ x ∧ x < c.addr + c.size)
  lists : ∃ m j, A'.Has m ∧ m.st = .free ∧ m.addr ≤ c.addr ∧ c.addr + c.size ≤ m.addr + m.size ∧ IsStoreClass m.size j ∧
    A'.fl = updFl (flOut A.fl m) j (flOut A.fl m j ++ [m])

theorem flOut_used {pb : Nat} {A : AHeap} {c : Ck} (W : A.WF pb) (hc : A.Has c) (hu : c.st ≠ .free) : flOut A.fl c = A.fl := by
  funext i
  unfold flOut
  rw [List.filter_eq_self]
  intro x hx
  have hne : x ≠ c := by rintro rfl; exact hu (W.flFree i x hx)
  have := W.has_disj (W.flHas i x hx) hc hne
  have := (W.has_wf (W.flHas i x hx)).ge
  have := (W.has_wf hc).ge
  simp only [decide_eq_true_eq]
  omega

theorem InsertRel.keep {pb : Nat} {K : Ctx} {m : Ck} {fl : Nat → List Ck} {A' : AHeap} (R : InsertRel pb K m fl true A')
    (W : (K.fill [m] fl).WF pb) (hu : m.st ≠ .free) :
    ∃ d j, A'.Has d ∧ d.st = .free ∧ d.addr ≤ m.addr ∧ m.addr + m.size ≤ d.addr + d.size ∧ IsStoreClass d.size j ∧
      A'.fl = updFl (flOut (K.fill [m] fl).fl d) j (flOut (K.fill [m] fl).fl d j ++ [d]) := by
  obtain ⟨j, hj, e⟩ := R.lists
  have e1 : flOut (K.fill [m] fl).fl m.mkFree = fl := by
    have e0 : flOut (K.fill [m] fl).fl m.mkFree = flOut (K.fill [m] fl).fl m := rfl
    rw [e0]
    exact flOut_used W (K.has_of_mem fl (cs := [m]) (c := m) (by simp)) hu
  refine ⟨m.mkFree, j, R.has, rfl, Nat.le_refl _, Nat.le_refl _, hj, ?_⟩
  rw [e, e1]; rfl

theorem MergeRel.keep {pb : Nat} {A A' : AHeap} {K : Ctx} {c m : Ck} {fl : Nat → List Ck} (R : MergeRel pb A c K m fl)
    (R' : InsertRel pb K m fl true A') :
    ∃ d j, A'.Has d ∧ d.st = .free ∧ d.addr ≤ c.addr ∧ c.addr + c.size ≤ d.addr + d.size ∧ IsStoreClass d.size j ∧
      A'.fl = updFl (flOut A.fl d) j (flOut A.fl d j ++ [d]) := by
  obtain ⟨j, hj, e⟩ := R'.lists
  have e1 : flOut A.fl m.mkFree = fl := R.lists.symm
  refine ⟨m.mkFree, j, R'.has, rfl, R.le, R.ge, hj, ?_⟩
  rw [e, e1]; rfl

/-- Merge (unless disabled) and insertion: the C code of a free on the pool view. -/
def releaseChunk (P : Pool) (noMerge : Bool) (s : Heap) (v : Nat) : Outcome Heap := do
  let (h, v) ← (if noMerge then pure (s, v) else mergeChunk P s v)
  freeListInsert P h (vLarge v) true

theorem release_ok {pb : Nat} {A : AHeap} {c : Ck} (W : A.WF pb) (hcA : A.Used c) (noMerge : Bool) :
    ∃ A', FreeRel pb A c A' ∧ ((noMerge = false → A.NoAdj → A'.NoAdj) ∧ (noMerge = true → A'.Has c.mkFree)) ∧
      ∀ s, MemOK (stdPool pb) s A → ∃ s', releaseChunk (stdPool pb) noMerge s (c.addr + 15) = .ok s' ∧
        MemOK (stdPool pb) s' A' ∧
        ∀ x, Quiet pb A x → (x < c.addr ∨ c.addr + c.size ≤ x) → s'.mem x = s.mem x := by
  have hr := W.has_range hcA.1
  cases noMerge with
  | true =>
    obtain ⟨K, hA⟩ := Ctx.of_has hcA.1
    generalize A.fl = fl at hA
    subst hA
    obtain ⟨_, p, hp⟩ := hcA
    have hcu : c.st ≠ .free := by rw [hp]; simp
    obtain ⟨A', R, hs⟩ := insert_rel W hcu true
    have hnr := Ctx.not_rest W (c := c) (by simp)
    refine ⟨A', ⟨R.wf, ?_, R.shape, ⟨c.mkFree, R.has, rfl, Nat.le_refl _, Nat.le_refl _⟩, R.free, R.keep W hcu⟩,
      ⟨by simp, fun _ => R.has⟩, ?_⟩
    · intro x
      rw [R.used, K.used]
      constructor
      · rintro ⟨h1, h2⟩
        exact ⟨⟨Or.inr h1, h2⟩, by rintro rfl; exact hnr h1⟩
      · rintro ⟨⟨h | h, h2⟩, h3⟩
        · rw [List.mem_singleton] at h; exact absurd h h3
        · exact ⟨h, h2⟩
    · intro s hM
      obtain ⟨s', e1, M1, f1⟩ := hs s hM
      refine ⟨s', ?_, M1, fun x hq hx => f1 x hq.1 hq.2.1 hx⟩
      unfold releaseChunk
      rw [if_pos rfl, Outcome.pure_eq, Outcome.ok_bind]
      simp only
      rw [vLarge_eq (by omega)]
      exact e1
  | false =>
    obtain ⟨K, m, fl, R, hs⟩ := merge_rel W hcA
    have hmu : m.st ≠ .free := by rw [R.st]; simp
    obtain ⟨A', R', hs'⟩ := insert_rel R.wf hmu true
    have hrm := R.wf.has_range (K.has_of_mem fl (cs := [m]) (c := m) (by simp))
    refine ⟨A', ⟨R'.wf, ?_, R'.shape.trans R.shape, ⟨m.mkFree, R'.has, rfl, R.le, R.ge⟩, ?_, R.keep R'⟩, ?_, ?_⟩
    · intro x; rw [R'.used, R.used]
    · intro x hx
      rcases R'.free x hx with h | h
      · exact Or.inl (R.free x h)
      · exact R.ext x h.1 h.2
    · refine ⟨fun _ h => R'.noAdj R.fence (R.noAdj h), by simp⟩
    · intro s hM
      obtain ⟨s1, e1, M1, f1⟩ := hs s hM
      obtain ⟨s2, e2, M2, f2⟩ := hs' s1 M1
      refine ⟨s2, ?_, M2, ?_⟩
      · unfold releaseChunk
        rw [if_neg (by simp), e1, Outcome.ok_bind]
        simp only
        rw [vLarge_eq (by omega)]
        exact e2
      · intro x hq hx
        have h1 := f1 x hq hx
        have h2 : s2.mem x = s1.mem x := by
          refine f2 x hq.1 (fun h => hq.2.1 (R.free x h)) ?_
          by_contra hcon
          rcases R.ext x (by omega) (by omega) with h | h
          · exact hq.2.1 h
          · omega
        rw [h2, h1]

end MpcAlloc
