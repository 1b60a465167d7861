import Verif.HeapMem

/-
Search, split, padding and merge on represented heaps.
-/

namespace MpcAlloc

/-! ### Search -/

/-- First chunk of a list that is large enough. -/
def AHeap.findIn (A : AHeap) (i size : Nat) : Option Ck := (A.fl i).find? (fun c => decide (size ≤ c.size))

/-- Chunk chosen by the search, `start` being the class of the request. -/
def AHeap.find (A : AHeap) (start size : Nat) : Option Ck :=
  match ((List.range' start (44 - start)).find? (fun i => decide (A.fl i ≠ []))).bind (A.findIn · size) with
  | some c => some c
  | none => if start ≠ 0 then A.findIn (start - 1) size else none

theorem AHeap.findIn_some {A : AHeap} {i size : Nat} {c : Ck} (h : A.findIn i size = some c) :
    c ∈ A.fl i ∧ size ≤ c.size := by
  unfold AHeap.findIn at h
  have h1 := List.find?_some h
  have h2 := List.mem_of_find?_eq_some h
  exact ⟨h2, by simpa using h1⟩

theorem AHeap.find_lt {A : AHeap} {start size : Nat} {c : Ck} (hs : start ≤ 44) (h : A.find start size = some c) :
    ∃ i, i < 44 ∧ c ∈ A.fl i ∧ size ≤ c.size := by
  unfold AHeap.find at h
  split at h
  · rename_i c' hc
    obtain rfl : c' = c := by simpa using h
    obtain ⟨i, h0, hi⟩ := Option.bind_eq_some_iff.1 hc
    have := List.mem_of_find?_eq_some h0
    rw [List.mem_range'_1] at this
    exact ⟨i, by omega, AHeap.findIn_some hi⟩
  · split at h
    · exact ⟨_, by omega, AHeap.findIn_some h⟩
    · simp at h

theorem AHeap.find_some {A : AHeap} {start size : Nat} {c : Ck} (h : A.find start size = some c) :
    ∃ i, c ∈ A.fl i ∧ size ≤ c.size := by
  unfold AHeap.find at h
  split at h
  · rename_i c' hc
    obtain rfl : c' = c := by simpa using h
    obtain ⟨i, _, hi⟩ := Option.bind_eq_some_iff.1 hc
    exact ⟨i, AHeap.findIn_some hi⟩
  · split at h
    · exact ⟨_, AHeap.findIn_some h⟩
    · simp at h

/-- The search finds a chunk whenever a free chunk of at most 2MB is large enough. -/
theorem AHeap.WF.find_complete {pb : Nat} {A : AHeap} (W : A.WF pb) {start size : Nat}
    (hcl : IsClass size start) (h : A.find start size = none) {c : Ck} (hc : A.Has c)
    (hf : c.st = .free) (hm : c.size ≤ MB2) : c.size < size := by
  by_contra hlt
  have hlt : size ≤ c.size := by omega
  obtain ⟨j, hj⟩ := W.flAll c hc hf
  obtain ⟨hk1, hk2, hk3⟩ := hcl
  rcases W.flClass j c hj with ⟨_, hj42, hj1, hj2⟩ | ⟨hbig, _⟩
  · unfold AHeap.find at h
    split at h
    · simp at h
    rename_i hb
    rw [Option.bind_eq_none_iff] at hb
    by_cases hjk : start ≤ j
    · -- a list at or above the class is not empty
      cases hfind : (List.range' start (44 - start)).find? (fun i => decide (A.fl i ≠ [])) with
      | none =>
        rw [List.find?_eq_none] at hfind
        have := hfind j (List.mem_range'_1.2 (by omega))
        simp at this
        rw [this] at hj; simp at hj
      | some l =>
        have hl1 := List.find?_some hfind
        have hl2 := List.mem_of_find?_eq_some hfind
        have hl3 := List.mem_range'_1.1 hl2
        have hn := hb l hfind
        unfold AHeap.findIn at hn
        rw [List.find?_eq_none] at hn
        obtain ⟨d, hd⟩ := List.exists_mem_of_ne_nil _ (by simpa using hl1)
        have hds := hn d hd
        simp only [decide_eq_true_eq, not_le] at hds
        rcases W.flClass l d hd with ⟨_, _, hl4, _⟩ | ⟨_, hl4⟩
        · have := ftbl_mono hl3.1; omega
        · omega
    · -- the chunk is in the list just below
      have hs0 : start ≠ 0 := by omega
      rw [if_pos hs0] at h
      have hj' : j = start - 1 := by
        by_contra hne
        have h1 := hk3 (start - 1) (by omega)
        have h2 := ftbl_mono (show j + 1 ≤ start - 1 by omega)
        have h3 := hj2 (by omega)
        omega
      subst hj'
      unfold AHeap.findIn at h
      rw [List.find?_eq_none] at h
      have := h c hj
      simp only [decide_eq_true_eq, not_le] at this
      omega
  · omega

/-- Class used by the search. -/
def searchClass (size k : Nat) : Prop :=
  getFreeList freeSizes 44 true size = .ok (k : Int) ∧ (IsClass size k ∨ MB2 < size ∧ k = 44)

theorem searchClass_exists {size : Nat} (h1 : 32 ≤ size) (h2 : size < W63) : ∃ k, searchClass size k := by
  by_cases h : size ≤ MB2
  · obtain ⟨k, a, b⟩ := getFreeListFast_small h1 h
    exact ⟨k, by simpa [getFreeList] using a, Or.inl b⟩
  · exact ⟨44, by simpa [getFreeList] using getFreeListFast_large (by omega) h2, Or.inr ⟨by omega, rfl⟩⟩

theorem firstNonEmpty_eq {P : Pool} {s : Heap} {A : AHeap} (H : MemOK P s A) (start : Nat) :
    firstNonEmpty s.status start 44 = (List.range' start (44 - start)).find? (fun i => decide (A.fl i ≠ [])) := by
  unfold firstNonEmpty
  have : ∀ l : List Nat, (∀ i ∈ l, i < 48) →
      l.find? s.status = l.find? (fun i => decide (A.fl i ≠ [])) := by
    intro l
    induction l with
    | nil => intro _; rfl
    | cons a l ih =>
      intro hl
      have ha := H.status a (hl a (by simp))
      have ih' := ih (fun i hi => hl i (by simp [hi]))
      by_cases hA : A.fl a ≠ []
      · have : s.status a = true := ha.2 hA
        simp [this, hA]
      · have hs : s.status a = false := by
          cases hb : s.status a
          · rfl
          · exact absurd (ha.1 hb) hA
        simp only [List.find?_cons, hs, decide_eq_false hA]
        exact ih'
  apply this
  intro i hi
  have := List.mem_range'_1.1 hi
  omega

/-- Header of a chunk of the heap. -/
theorem MemOK.hdr {P : Pool} {s : Heap} {A : AHeap} (H : MemOK P s A) {c : Ck} (hc : A.Has c) :
    ∃ p, CkMem s.mem p c := by
  obtain ⟨t, ht, hct⟩ := hc
  have h := (H.segs t ht).chunks
  obtain ⟨l1, l2, e⟩ := List.append_of_mem (Seg.mem_ext hct)
  rw [e] at h
  exact ⟨_, (chunksMem_mid.1 h).2.1⟩

theorem MemOK.hsize {pb : Nat} {P : Pool} {s : Heap} {A : AHeap} (W : A.WF pb) (H : MemOK P s A) {c : Ck}
    (hc : A.Has c) : hSize s.mem c.addr = c.size := by
  obtain ⟨p, hp⟩ := H.hdr hc
  rw [hp.hdr.size, Ck.hdrSize_eq (W.has_wf hc).nstop]

theorem find?_map_addr {P : Ck → Bool} {Q : Nat → Bool} {l : List Ck} (h : ∀ c ∈ l, Q c.addr = P c) :
    ((l.map Ck.addr).find? Q) = (l.find? P).map Ck.addr := by
  induction l with
  | nil => rfl
  | cons c l ih =>
    have hc := h c (by simp)
    have ih' := ih (fun d hd => h d (by simp [hd]))
    simp only [List.map_cons, List.find?_cons, hc]
    cases P c
    · exact ih'
    · rfl

theorem findAdapted_eq {pb : Nat} {s : Heap} {A : AHeap} (W : A.WF pb) (H : MemOK (stdPool pb) s A)
    {i size : Nat} (hi : i < 48) (hs : size < W63) :
    findAdapted s.mem ((stdPool pb).head i) size = .ok (((A.findIn i size).map Ck.addr).getD 0) := by
  unfold findAdapted
  rw [findLoop_spec (H.lists i hi)]
  · congr 2
    unfold AHeap.findIn
    apply find?_map_addr
    intro c hc
    have hH := W.flHas i c hc
    have := W.has_range hH
    rw [H.hsize W hH, toS_eq hs, toS_eq (by omega)]
    simp
  · intro n hn
    obtain ⟨c, hc, rfl⟩ := List.mem_map.1 hn
    have hH := W.flHas i c hc
    have := W.has_range hH
    have := W.has_pool hH
    have := (W.has_wf hH).ge
    simp only [stdPool_head]
    omega

/-- Lists with one chunk deleted. -/
def flDel (fl : Nat → List Ck) (F : List Ck) : Nat → List Ck := fun i => (fl i).filter (fun c => decide (c ∉ F))

theorem flDel_nil (fl : Nat → List Ck) : flDel fl [] = fl := by
  funext i; simp [flDel]

theorem flDel_append (fl : Nat → List Ck) (F G : List Ck) : flDel (flDel fl F) G = flDel fl (F ++ G) := by
  funext i
  simp only [flDel, List.filter_filter]
  apply List.filter_congr
  intro x _
  simp only [List.mem_append, not_or, Bool.decide_and]
  exact Bool.and_comm _ _

theorem flDel_perm (fl : Nat → List Ck) {F G : List Ck} (h : ∀ x, x ∈ F ↔ x ∈ G) : flDel fl F = flDel fl G := by
  funext i
  simp only [flDel, h]

theorem mem_flDel {fl : Nat → List Ck} {F : List Ck} {i : Nat} {c : Ck} :
    c ∈ flDel fl F i ↔ c ∈ fl i ∧ c ∉ F := by simp [flDel]

theorem AHeap.WF.updFl_del {pb : Nat} {A : AHeap} (W : A.WF pb) {i : Nat} {c : Ck} {l1 l2 : List Ck}
    (hl : A.fl i = l1 ++ c :: l2) : updFl A.fl i (l1 ++ l2) = flDel A.fl [c] := by
  funext k
  unfold flDel updFl
  split
  · rename_i e
    subst e
    have hnd := W.flNodup k
    rw [hl] at hnd ⊢
    have h1 : ∀ x ∈ l1, x ≠ c := by intro x hx; rintro rfl; grind
    have h2 : ∀ x ∈ l2, x ≠ c := by intro x hx; rintro rfl; grind
    rw [List.filter_append, List.filter_cons_of_neg (by simp)]
    rw [List.filter_eq_self.2 (by simpa using h1), List.filter_eq_self.2 (by simpa using h2)]
  · rename_i e
    symm
    rw [List.filter_eq_self]
    intro x hx
    simp only [List.mem_singleton, decide_eq_true_eq]
    rintro rfl
    exact e (W.fl_unique hx (i := k) (j := i) (by simp [hl]))

/-- Removing a free chunk. -/
theorem remove_link {pb : Nat} {K : Ctx} {c : Ck} {fl : Nat → List Ck} (W : (K.fill [c] fl).WF pb)
    (hc : c.st = .free) :
    (K.fill [c.use] (flDel fl [c])).WF pb ∧
    ∀ s, MemOK (stdPool pb) s (K.fill [c] fl) →
      ∃ s', freeListRemove (stdPool pb) s c.addr = .ok s' ∧
        MemOK (stdPool pb) s' (K.fill [c.use] (flDel fl [c])) ∧
        ∀ x, ¬ PoolAt pb x → ¬ (K.fill [c] fl).LinkAt x → s'.mem x = s.mem x := by
  obtain ⟨i, hi⟩ := W.flAll c (K.has_of_mem fl (by simp)) hc
  obtain ⟨l1, l2, hl⟩ := List.append_of_mem hi
  have e := W.updFl_del hl
  have e' : updFl fl i (l1 ++ l2) = flDel fl [c] := e
  refine ⟨by rw [← e']; exact wf_remove W hl, fun s H => ?_⟩
  obtain ⟨s', h1, h2, h3⟩ := freeListRemove_link W hl H
  exact ⟨s', h1, by rw [← e']; exact h2, h3⟩

theorem remove_ok {pb : Nat} {K : Ctx} {c : Ck} {fl : Nat → List Ck} (W : (K.fill [c] fl).WF pb)
    (hc : c.st = .free) :
    (K.fill [c.use] (flDel fl [c])).WF pb ∧
    ∀ s, MemOK (stdPool pb) s (K.fill [c] fl) →
      ∃ s', freeListRemove (stdPool pb) s c.addr = .ok s' ∧
        MemOK (stdPool pb) s' (K.fill [c.use] (flDel fl [c])) ∧
        ∀ x, ¬ PoolAt pb x → ¬ (K.fill [c] fl).FreeAt x → s'.mem x = s.mem x := by
  obtain ⟨i, hi⟩ := W.flAll c (K.has_of_mem fl (by simp)) hc
  obtain ⟨l1, l2, hl⟩ := List.append_of_mem hi
  have e := W.updFl_del hl
  have e' : updFl fl i (l1 ++ l2) = flDel fl [c] := e
  refine ⟨by rw [← e']; exact wf_remove W hl, fun s H => ?_⟩
  obtain ⟨s', h1, h2, h3⟩ := freeListRemove_ok W hl H
  exact ⟨s', h1, by rw [← e']; exact h2, h3⟩

/-- Result of the search. -/
theorem findFreeChunk_ok {pb : Nat} {A : AHeap} {user k : Nat} (W : A.WF pb)
    (hsz : calcChunkSize user < W63) (hk : searchClass (calcChunkSize user) k) :
    match A.find k (calcChunkSize user) with
    | none => ∀ s, MemOK (stdPool pb) s A → findFreeChunk (stdPool pb) s user = .ok (s, 0)
    | some c => A.Has c ∧ c.st = .free ∧ calcChunkSize user ≤ c.size ∧
        ∀ s, MemOK (stdPool pb) s A →
          findFreeChunk (stdPool pb) s user = (do
            let s' ← freeListRemove (stdPool pb) s c.addr
            pure (s', c.addr)) := by
  have hk48 : k < 45 := by
    rcases hk.2 with h | h
    · have := h.1; omega
    · omega
  have main : ∀ s, MemOK (stdPool pb) s A →
      findFreeChunk (stdPool pb) s user =
        (match A.find k (calcChunkSize user) with
          | none => .ok (s, 0)
          | some c => (do
            let s' ← freeListRemove (stdPool pb) s c.addr
            pure (s', c.addr))) := by
    intro s H
    unfold findFreeChunk
    have hg : getFreeList (stdPool pb).sizes (stdPool pb).nb (stdPool pb).analytic (calcChunkSize user)
        = .ok (k : Int) := hk.1
    simp only [hg, Outcome.ok_bind]
    rw [if_neg (by omega)]
    simp only [Int.toNat_natCast]
    have hfne : firstNonEmpty s.status k (stdPool pb).nb = _ := firstNonEmpty_eq H k
    rw [hfne]
    have hpos : ∀ {i c}, A.findIn i (calcChunkSize user) = some c → c.addr ≠ 0 := by
      intro i c hc
      have := W.has_range (W.flHas i c (AHeap.findIn_some hc).1)
      omega
    have tail : ∀ r : Option Ck, (∀ c, r = some c → c.addr ≠ 0) → 
        (do
          let res ← (if (r.map Ck.addr).getD 0 = 0 ∧ k ≠ 0 then
              findAdapted s.mem ((stdPool pb).head (k - 1)) (calcChunkSize user)
            else .ok ((r.map Ck.addr).getD 0))
          if res ≠ 0 then do
            let s ← freeListRemove (stdPool pb) s res
            pure (s, res)
          else pure (s, 0)) =
        (match (match r with
            | some c => some c
            | none => if k ≠ 0 then A.findIn (k - 1) (calcChunkSize user) else none) with
          | none => .ok (s, 0)
          | some c => (do
            let s' ← freeListRemove (stdPool pb) s c.addr
            pure (s', c.addr))) := by
      intro r hr
      cases r with
      | some c =>
        have := hr c rfl
        simp [this]
      | none =>
        by_cases hk0 : k = 0
        · simp [hk0]
        · simp only [Option.map_none, Option.getD_none, true_and, hk0, ne_eq, not_false_eq_true, if_true]
          rw [findAdapted_eq W H (by omega) hsz]
          cases hf : A.findIn (k - 1) (calcChunkSize user) with
          | none => simp
          | some c =>
            have := hpos hf
            simp [this]
    unfold AHeap.find
    cases hfi : (List.range' k (44 - k)).find? (fun i => decide (A.fl i ≠ [])) with
    | none =>
      have := tail none (by simp)
      simpa using this
    | some l =>
      have hl := List.mem_range'_1.1 (List.mem_of_find?_eq_some hfi)
      simp only [Option.bind_some]
      rw [findAdapted_eq W H (by omega) hsz]
      have := tail (A.findIn l (calcChunkSize user)) (fun c hc => hpos hc)
      simpa using this
  cases hf : A.find k (calcChunkSize user) with
  | none =>
    intro s H
    have := main s H
    rw [hf] at this
    exact this
  | some c =>
    obtain ⟨i, h1, h2⟩ := AHeap.find_some hf
    refine ⟨W.flHas i c h1, W.flFree i c h1, h2, ?_⟩
    intro s H
    have := main s H
    rw [hf] at this
    exact this

/-! ### Split -/

/-- The byte belongs to the header of a chunk or of an end mark. -/
def AHeap.HdrIn (A : AHeap) (x : Nat) : Prop :=
  ∃ s ∈ A.segs, ∃ d ∈ s.ext, d.addr ≤ x ∧ x < d.addr + 16

theorem lastSz_le {a e : Nat} {l : List Ck} (h : Tiles a l e) : lastSz 0 l ≤ e - a := by
  rcases List.eq_nil_or_concat l with rfl | ⟨l', c, rfl⟩
  · simp [lastSz]
  · rw [List.concat_eq_append] at h ⊢
    rw [lastSz_append]
    have := tiles_mem h (c := c) (by simp)
    omega

theorem prevField_sub {a z : Nat} (h1 : z < a) (h2 : a < W64) (h3 : z < W56) :
    prevField a (sub64 a z) = z := by
  rw [sub64_eq (by omega) h2]
  by_cases hz : z = 0
  · subst hz; simp
  · rw [prevField_eq (by omega) (by omega) h2 (by omega)]; omega

/-- Bounds of the hole. -/
theorem Ctx.bounds {pb : Nat} {K : Ctx} {cs : List Ck} {fl : Nat → List Ck}
    (W : (K.fill cs fl).WF pb) {a e : Nat} (t1 : Tiles (K.base + 32) K.p a) (t2 : Tiles a cs e) :
    0 < K.base ∧ K.base + 32 ≤ a ∧ a ≤ e ∧ e + 16 ≤ K.base + K.size ∧ K.base + K.size < W64 ∧
      K.size < W56 ∧ (K.base + K.size ≤ pb ∨ pb + 1536 ≤ K.base) ∧ 96 ≤ K.size := by
  obtain ⟨a', e', t1', t2', t3⟩ := Ctx.hole W
  obtain rfl := tiles_unique t1' t1
  obtain rfl := tiles_unique t2' t2
  have hw := W.seg _ (K.seg_mem cs fl)
  have hge : 96 ≤ K.size := hw.ge
  have := tiles_mem t3 (c := (K.seg cs).stop) (by simp)
  simp only [Seg.stop, Ctx.seg] at this
  exact ⟨hw.pos, tiles_le t1, tiles_le t2, by omega, hw.lt, hw.lt56, W.pool _ (K.seg_mem cs fl), hge⟩

/-- The header following the hole. -/
theorem Ctx.hdrIn_next {pb : Nat} {K : Ctx} {cs : List Ck} {fl : Nat → List Ck}
    (W : (K.fill cs fl).WF pb) {a e x : Nat} (t1 : Tiles (K.base + 32) K.p a) (t2 : Tiles a cs e)
    (h1 : e ≤ x) (h2 : x < e + 16) : (K.fill cs fl).HdrIn x := by
  obtain ⟨a', e', t1', t2', t3⟩ := Ctx.hole W
  obtain rfl := tiles_unique t1' t1
  obtain rfl := tiles_unique t2' t2
  refine ⟨_, K.seg_mem cs fl, ?_⟩
  have hext : (K.seg cs).ext = K.p ++ cs ++ (K.q ++ [(K.seg cs).stop]) := by
    simp [Ctx.seg, Seg.ext, Seg.stop]
  obtain ⟨d, r, hr⟩ : ∃ d r, K.q ++ [(K.seg cs).stop] = d :: r := by
    cases K.q <;> simp
  rw [hr] at t3
  have := t3.1
  exact ⟨d, by rw [hext, hr]; simp, by omega, by omega⟩

/-- Size of the chunk cut for a request. -/
def cutSize (user : Nat) : Nat := (calcChunkSize user + 15) / 16 * 16

theorem calc_ge (user : Nat) : 32 ≤ calcChunkSize user := by
  unfold calcChunkSize; simp only; split <;> omega

theorem alignSize16_eq {n : Nat} (h : n + 15 < W64) : alignSize16 n = (n + 15) / 16 * 16 := by
  unfold alignSize16; rw [add64_eq h]

theorem cutSize_le {user : Nat} {c : Ck} (hc : c.WF) (h : calcChunkSize user ≤ c.size) : cutSize user ≤ c.size := by
  unfold cutSize; have := hc.dvd; omega

theorem cut_wf {user : Nat} {c : Ck} (hc : c.WF) (h : cutSize user + 32 ≤ c.size) :
    (⟨c.addr, cutSize user, .used none⟩ : Ck).WF ∧
    (⟨c.addr + cutSize user, c.size - cutSize user, .used none⟩ : Ck).WF := by
  have h1 := calc_ge user
  have h2 := hc.dvd
  have h3 : 32 ≤ cutSize user := by unfold cutSize; omega
  have h4 : 16 ∣ cutSize user := by unfold cutSize; omega
  refine ⟨⟨h4, h3, ?_, by simp⟩, ⟨?_, ?_, ?_, by simp⟩⟩
  · show 16 ≤ cutSize user; omega
  · show 16 ∣ c.size - cutSize user; omega
  · show 32 ≤ c.size - cutSize user; omega
  · show 16 ≤ c.size - cutSize user; omega

theorem wf_split {pb : Nat} {K : Ctx} {c : Ck} {fl : Nat → List Ck} {user : Nat}
    (W : (K.fill [c] fl).WF pb) (hc : c.st = .used none) (h : cutSize user + 32 ≤ c.size) :
    (K.fill [⟨c.addr, cutSize user, .used none⟩, ⟨c.addr + cutSize user, c.size - cutSize user, .used none⟩] fl).WF pb := by
  have hcw := W.has_wf (K.has_of_mem fl (cs := [c]) (c := c) (by simp))
  obtain ⟨w1, w2⟩ := cut_wf hcw h
  refine wf_used W (by simp [hc]) (by simp) ?_ ?_
  · rintro a e ⟨rfl, rfl⟩
    exact ⟨rfl, rfl, by show c.addr + cutSize user + (c.size - cutSize user) = _; omega⟩
  · intro d hd
    simp only [List.mem_cons, List.not_mem_nil, or_false] at hd
    rcases hd with rfl | rfl
    · exact w1
    · exact w2

theorem split_ok {pb : Nat} {K : Ctx} {c : Ck} {fl : Nat → List Ck} {user : Nat} {s : Heap}
    (W : (K.fill [c] fl).WF pb) (hc : c.st = .used none) (hsz : calcChunkSize user ≤ c.size)
    (H : MemOK (stdPool pb) s (K.fill [c] fl)) (h : cutSize user + 32 ≤ c.size) :
    ∃ m', splitFreeBloc s.mem (c.addr + 15) user = .ok (m', c.addr + 15, c.addr + cutSize user + 15) ∧
      MemOK (stdPool pb) { s with mem := m' } (K.fill [⟨c.addr, cutSize user, .used none⟩,
        ⟨c.addr + cutSize user, c.size - cutSize user, .used none⟩] fl) ∧
      ∀ x, (x < c.addr ∨ c.addr + c.size ≤ x) → ¬ (K.fill [c] fl).HdrIn x → m' x = s.mem x := by
  have hcH := K.has_of_mem fl (cs := [c]) (c := c) (by simp)
  have hcw := W.has_wf hcH
  have hge := hcw.ge
  have hr := W.has_range hcH
  obtain ⟨n, hn⟩ : ∃ n, n = cutSize user := ⟨_, rfl⟩
  have hcut : alignSize16 (calcChunkSize user) = n := by rw [alignSize16_eq (by omega), hn, cutSize]
  have hn32 : 32 ≤ n := by have := calc_ge user; rw [hn]; unfold cutSize; omega
  rw [← hn] at h ⊢
  obtain ⟨a, e, t1, t2, t3⟩ := Ctx.hole W
  obtain ⟨rfl, rfl⟩ := t2
  have hb := Ctx.bounds W t1 ⟨rfl, rfl⟩
  obtain ⟨c1, c2, c3⟩ := Ctx.hole_mem (H.segs _ (K.seg_mem [c] fl))
  have hh := c2.1.hdr
  rw [Ck.hdrSize_eq hcw.nstop] at hh
  have hlast := lastSz_le t1
  obtain ⟨z, hz⟩ : ∃ z, z = lastSz 0 K.p := ⟨_, rfl⟩
  rw [← hz] at hh hlast
  -- the three writes
  obtain ⟨m1, hm1⟩ : ∃ m1, m1 = setupLargeHeader s.mem (c.addr + n) (c.size - n) c.addr := ⟨_, rfl⟩
  obtain ⟨m2, hm2⟩ : ∃ m2, m2 = setupLargeHeader m1 c.addr n (sub64 c.addr z) := ⟨_, rfl⟩
  obtain ⟨m3, hm3⟩ : ∃ m3, m3 = setPrevSize m2 (c.addr + c.size) (c.size - n) := ⟨_, rfl⟩
  have f1 : ∀ x, x < c.addr + n ∨ c.addr + n + 16 ≤ x → m1 x = s.mem x := by
    intro x hx; rw [hm1]; exact setupLargeHeader_other hx
  have f2 : ∀ x, x < c.addr ∨ c.addr + 16 ≤ x → m2 x = m1 x := by
    intro x hx; rw [hm2]; exact setupLargeHeader_other hx
  have f3 : ∀ x, x < c.addr + c.size + 8 ∨ c.addr + c.size + 15 ≤ x → m3 x = m2 x := by
    intro x hx; rw [hm3]; unfold setPrevSize; exact writeLE_other (by omega)
  have hh1 : HdrAt m1 c.addr c.size z c.st.num :=
    hh.congr (fun x h1 h2 => f1 x (by omega)) (fun x h1 h2 => f1 x (by omega))
  have hr1 : HdrAt m1 (c.addr + n) (c.size - n) n 1 := by
    have := setupLargeHeader_hdr s.mem (c.addr + n) (c.size - n) c.addr
    rw [← hm1, Nat.mod_eq_of_lt (by omega), prevField_eq (by omega) (by omega) (by omega) (by omega)] at this
    simpa using this
  have hr2 : HdrAt m2 (c.addr + n) (c.size - n) n 1 :=
    hr1.congr (fun x h1 h2 => f2 x (by omega)) (fun x h1 h2 => f2 x (by omega))
  have hc2 : HdrAt m2 c.addr n z 1 := by
    have := setupLargeHeader_hdr m1 c.addr n (sub64 c.addr z)
    rw [← hm2, Nat.mod_eq_of_lt (by omega), prevField_sub (by omega) (by omega) (by omega)] at this
    exact this
  have hr3 : HdrAt m3 (c.addr + n) (c.size - n) n 1 :=
    hr2.congr (fun x h1 h2 => f3 x (by omega)) (fun x h1 h2 => f3 x (by omega))
  have hc3 : HdrAt m3 c.addr n z 1 :=
    hc2.congr (fun x h1 h2 => f3 x (by omega)) (fun x h1 h2 => f3 x (by omega))
  have hp3 : hPrev m3 (c.addr + c.size) = c.size - n := by
    rw [hm3]; unfold hPrev setPrevSize
    rw [readLE_writeLE_same, Nat.mod_eq_of_lt]
    have : (256 : Nat) ^ 7 = W56 := by decide
    omega
  refine ⟨m3, ?_, ?_, ?_⟩
  · unfold splitFreeBloc
    rw [hcut, getSize_large hh (by omega)]
    simp only
    rw [sub64_eq (by omega) (by omega), if_pos (by omega)]
    simp only [getPtr_large hh (by omega : c.addr + 16 < W64), Outcome.ok_bind, setupChunk]
    rw [add64_eq (by omega : c.addr + n < W64), ← hm1]
    simp only [getPtr_large hh1 (by omega : c.addr + 16 < W64), Outcome.ok_bind]
    rw [getPrevSize_large hh1 (by omega), ← hm2, largeToV_eq (by omega : c.addr + n + 16 < W64),
      getNextChunk_large hr2 (by omega) (by omega)]
    have e1 : c.addr + n + (c.size - n) = c.addr + c.size := by omega
    rw [e1, vLarge_eq (by omega), ← hm3, largeToV_eq (by omega)]
    rfl
  · refine memOK_replace W H (by simp [hc]) t1 ⟨rfl, rfl⟩ (by omega) ?_ ?_ ?_
    · intro x h1 h2
      rw [f3 x (by omega), f2 x (by omega), f1 x (by omega)]
    · exact ⟨⟨by rw [← hz]; exact hc3, by simp⟩, ⟨by exact hr3, by simp⟩, trivial⟩
    · exact hp3
  · intro x h1 h2
    have : ¬ (c.addr + c.size ≤ x ∧ x < c.addr + c.size + 16) := fun hx =>
      h2 (Ctx.hdrIn_next W t1 ⟨rfl, rfl⟩ hx.1 hx.2)
    rw [f3 x (by omega), f2 x (by omega), f1 x (by omega)]

theorem split_none {pb : Nat} {K : Ctx} {c : Ck} {fl : Nat → List Ck} {user : Nat} {s : Heap}
    (W : (K.fill [c] fl).WF pb) (hsz : calcChunkSize user ≤ c.size)
    (H : MemOK (stdPool pb) s (K.fill [c] fl)) (h : c.size < cutSize user + 32) :
    splitFreeBloc s.mem (c.addr + 15) user = .ok (s.mem, c.addr + 15, 0) := by
  have hcH := K.has_of_mem fl (cs := [c]) (c := c) (by simp)
  have hcw := W.has_wf hcH
  have hr := W.has_range hcH
  obtain ⟨c1, c2, c3⟩ := Ctx.hole_mem (H.segs _ (K.seg_mem [c] fl))
  have hh := c2.1.hdr
  rw [Ck.hdrSize_eq hcw.nstop] at hh
  have := cutSize_le hcw hsz
  unfold splitFreeBloc
  have hcut : alignSize16 (calcChunkSize user) = cutSize user := by rw [alignSize16_eq (by omega), cutSize]
  rw [hcut, getSize_large hh (by omega)]
  simp only
  rw [sub64_eq this (by omega), if_neg (by omega)]
  rfl

/-! ### Padding -/

theorem wf_pad {pb : Nat} {K : Ctx} {c : Ck} {fl : Nat → List Ck} {p : Option Nat}
    (W : (K.fill [c] fl).WF pb) (hc : c.st ≠ .free) (hp : ∀ q, p = some q → 24 + q ≤ c.size) :
    (K.fill [{ c with st := .used p }] fl).WF pb := by
  have hcw := W.has_wf (K.has_of_mem fl (cs := [c]) (c := c) (by simp))
  refine wf_used W (by simpa using hc) (by simp) (fun a e h => h) ?_
  intro d hd
  rw [List.mem_singleton] at hd
  subst hd
  refine ⟨hcw.dvd, hcw.ge, ?_, by simp⟩
  have := hcw.ge
  cases p with
  | none => show 16 ≤ c.size; omega
  | some q => show 24 + q ≤ c.size; exact hp q rfl

theorem pad_ok {pb : Nat} {K : Ctx} {c : Ck} {fl : Nat → List Ck} {s : Heap} {b : Nat}
    (W : (K.fill [c] fl).WF pb) (hc : c.st = .used none) (H : MemOK (stdPool pb) s (K.fill [c] fl))
    (hb : 1 < b) (hne : (c.addr + 16) % b ≠ 0) (hfit : alignUp (c.addr + 24) b ≤ c.addr + c.size) :
    ∃ m', setupChunkPadded s.mem (c.addr + 15) b = (m', alignUp (c.addr + 24) b - 1) ∧
      MemOK (stdPool pb) { s with mem := m' }
        (K.fill [{ c with st := .used (some (alignUp (c.addr + 24) b - (c.addr + 24))) }] fl) ∧
      PadAt m' (c.addr + 16 + (alignUp (c.addr + 24) b - (c.addr + 24))) (alignUp (c.addr + 24) b - (c.addr + 24)) ∧
      ∀ x, (x < c.addr + 16 ∨ c.addr + c.size ≤ x) → m' x = s.mem x := by
  have hcH := K.has_of_mem fl (cs := [c]) (c := c) (by simp)
  have hcw := W.has_wf hcH
  have hge := hcw.ge
  have hr := W.has_range hcH
  obtain ⟨a, e, t1, t2, t3⟩ := Ctx.hole W
  obtain ⟨rfl, rfl⟩ := t2
  obtain ⟨c1, c2, c3⟩ := Ctx.hole_mem (H.segs _ (K.seg_mem [c] fl))
  have hh := c2.1.hdr
  rw [hc] at hh
  have hup := alignUp_ge (c.addr + 24) b
  obtain ⟨m', r1, r2, r3⟩ := setupChunkPadded_spec hh hb hne (by omega) (by omega)
  refine ⟨m', r1, ?_, ?_, fun x hx => r3 x (by omega)⟩
  rotate_left
  · have : c.addr + 16 + (alignUp (c.addr + 24) b - (c.addr + 24)) = alignUp (c.addr + 24) b - 8 := by omega
    rw [this]
    exact r2
  refine memOK_replace W H (by simp [hc]) t1 ⟨rfl, rfl⟩ (by omega) (fun x h1 h2 => r3 x (by omega)) ?_ ?_
  · refine ⟨⟨?_, ?_⟩, trivial⟩
    · show HdrAt m' c.addr _ _ 1
      have : ({ c with st := .used (some (alignUp (c.addr + 24) b - (c.addr + 24))) } : Ck).hdrSize = c.hdrSize := by
        rw [Ck.hdrSize_eq (by simp), Ck.hdrSize_eq hcw.nstop]
      rw [this]
      exact hh.congr (fun x h1 h2 => r3 x (by omega)) (fun x h1 h2 => r3 x (by omega))
    · intro p hp
      have hp' : p = alignUp (c.addr + 24) b - (c.addr + 24) := by simpa using hp.symm
      subst hp'
      show PadAt m' (c.addr + 16 + (alignUp (c.addr + 24) b - (c.addr + 24))) _
      have : c.addr + 16 + (alignUp (c.addr + 24) b - (c.addr + 24)) = alignUp (c.addr + 24) b - 8 := by omega
      rw [this]
      exact r2
  · have hag : AgreeOn s.mem m' (c.addr + c.size + 8) 7 := fun x h1 h2 => r3 x (by omega)
    exact (readLE_congr hag).trans (Ctx.next_hdr c3 t3)

/-- A memory where the padded header is already there. -/
theorem pad_already {pb : Nat} {K : Ctx} {c : Ck} {fl : Nat → List Ck} {s : Heap} {q : Nat}
    (W : (K.fill [c] fl).WF pb) (hc : c.st = .used none) (H : MemOK (stdPool pb) s (K.fill [c] fl))
    (hp : PadAt s.mem (c.addr + 16 + q) q) :
    MemOK (stdPool pb) s (K.fill [{ c with st := .used (some q) }] fl) := by
  have hcH := K.has_of_mem fl (cs := [c]) (c := c) (by simp)
  have hcw := W.has_wf hcH
  have hge := hcw.ge
  obtain ⟨a, e, t1, t2, t3⟩ := Ctx.hole W
  obtain ⟨rfl, rfl⟩ := t2
  obtain ⟨c1, c2, c3⟩ := Ctx.hole_mem (H.segs _ (K.seg_mem [c] fl))
  have hh := c2.1.hdr
  rw [hc] at hh
  refine memOK_replace (m' := s.mem) W H (by simp [hc]) t1 ⟨rfl, rfl⟩ (by omega) (fun x h1 h2 => rfl) ?_ ?_
  · refine ⟨⟨?_, ?_⟩, trivial⟩
    · show HdrAt s.mem c.addr _ _ 1
      have : ({ c with st := .used (some q) } : Ck).hdrSize = c.hdrSize := by
        rw [Ck.hdrSize_eq (by simp), Ck.hdrSize_eq hcw.nstop]
      rw [this]
      exact hh
    · intro p hp'
      have : p = q := by simpa using hp'.symm
      subst this
      exact hp
  · exact Ctx.next_hdr c3 t3

/-! ### Merge -/

/-- Fusing a run of used chunks. -/
theorem wf_fuse {pb : Nat} {K : Ctx} {cs : List Ck} {fl : Nat → List Ck} {a e : Nat}
    (W : (K.fill cs fl).WF pb) (hu : ∀ c ∈ cs, c.st ≠ .free) (hne : cs ≠ [])
    (t1 : Tiles (K.base + 32) K.p a) (t2 : Tiles a cs e) : (K.fill [⟨a, e - a, .used none⟩] fl).WF pb := by
  have hsum : ∀ (l : List Ck) (x y : Nat), Tiles x l y → (∀ c ∈ l, 16 ∣ c.size) → 16 ∣ y - x := by
    intro l
    induction l with
    | nil => rintro x y rfl _; simp
    | cons c l ih =>
      rintro x y ⟨rfl, h⟩ hd
      have h1 := ih _ _ h (fun d hd' => hd d (by simp [hd']))
      have h2 := hd c (by simp)
      have := tiles_le h
      omega
  have hcw : ∀ c ∈ cs, c.WF := fun c hc => W.has_wf (K.has_of_mem fl hc)
  have hge : 32 ≤ e - a := by
    obtain ⟨c, hc⟩ := List.exists_mem_of_ne_nil _ hne
    have := tiles_mem t2 hc
    have := (hcw c hc).ge
    omega
  refine wf_used W hu (by simp) ?_ ?_
  · intro a' e' h
    cases cs with
    | nil => exact absurd rfl hne
    | cons c l =>
      have h1 : c.addr = a' := h.1
      have h2 : c.addr = a := t2.1
      obtain rfl : a' = a := h1.symm.trans h2
      obtain rfl := tiles_unique h t2
      exact ⟨rfl, by show a' + (e' - a') = e'; omega⟩
  · intro d hd
    rw [List.mem_singleton] at hd
    subst hd
    refine ⟨hsum cs a e t2 (fun c hc => (hcw c hc).dvd), hge, by show 16 ≤ e - a; omega, by simp⟩

theorem fuse_ok {pb : Nat} {K : Ctx} {cs : List Ck} {fl : Nat → List Ck} {s : Heap} {a e : Nat}
    (W : (K.fill cs fl).WF pb) (hu : ∀ c ∈ cs, c.st ≠ .free) (hlt : a < e)
    (t1 : Tiles (K.base + 32) K.p a) (t2 : Tiles a cs e) (H : MemOK (stdPool pb) s (K.fill cs fl)) :
    MemOK (stdPool pb)
      { s with mem := setupLargeHeader (setPrevSize s.mem e (e - a)) a (e - a) (sub64 a (lastSz 0 K.p)) }
      (K.fill [⟨a, e - a, .used none⟩] fl) := by
  have hb := Ctx.bounds W t1 t2
  have hlast := lastSz_le t1
  obtain ⟨m1, hm1⟩ : ∃ m1, m1 = setPrevSize s.mem e (e - a) := ⟨_, rfl⟩
  obtain ⟨m2, hm2⟩ : ∃ m2, m2 = setupLargeHeader m1 a (e - a) (sub64 a (lastSz 0 K.p)) := ⟨_, rfl⟩
  rw [← hm1, ← hm2]
  have f1 : ∀ x, x < e + 8 ∨ e + 15 ≤ x → m1 x = s.mem x := by
    intro x hx; rw [hm1]; unfold setPrevSize; exact writeLE_other (by omega)
  have f2 : ∀ x, x < a ∨ a + 16 ≤ x → m2 x = m1 x := by
    intro x hx; rw [hm2]; exact setupLargeHeader_other hx
  have hsz : a + 16 ≤ e := by
    cases cs with
    | nil => exact absurd (show a = e from t2) (by omega)
    | cons c l =>
      have := (W.has_wf (K.has_of_mem fl (cs := c :: l) (c := c) (by simp))).ge
      have := tiles_mem t2 (c := c) (by simp)
      omega
  have hc2 : HdrAt m2 a (e - a) (lastSz 0 K.p) 1 := by
    have := setupLargeHeader_hdr m1 a (e - a) (sub64 a (lastSz 0 K.p))
    rw [← hm2, Nat.mod_eq_of_lt (by omega), prevField_sub (by omega) (by omega) (by omega)] at this
    exact this
  refine memOK_replace W H hu t1 t2 hlt ?_ ?_ ?_
  · intro x h1 h2
    rw [f2 x (by omega), f1 x (by omega)]
  · exact ⟨⟨hc2, by simp⟩, trivial⟩
  · show hPrev m2 e = e - a
    have hag : AgreeOn m1 m2 (e + 8) 7 := fun x h1 h2 => f2 x (by omega)
    unfold hPrev
    rw [readLE_congr hag, hm1]
    unfold setPrevSize
    rw [readLE_writeLE_same, Nat.mod_eq_of_lt]
    have : (256 : Nat) ^ 7 = W56 := by decide
    omega

end MpcAlloc
