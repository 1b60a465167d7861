import Verif.ChainInit

/-
A chain over a buffer whose size is not a multiple of 16 (/repo/src/sctk_allocator.c: user_refill 1046-1077,
split_free_bloc 806-846). Lemmas on a chain that holds one free chunk; no hypothesis on the alignment of the
buffer. The claims are in PropsOddBuffer.lean.
-/

namespace MpcAlloc

variable {σ : Type}

/-- All the lists of the pool are empty. -/
structure NoFree (pb : Nat) (h : Heap) : Prop where
  lists : ∀ i, i < 48 → Links h.mem ((stdPool pb).head i) [] ((stdPool pb).head i)
  status : ∀ i, h.status i = false

/-- The only free chunk is at `f`, in list `j`. -/
structure OneFree (pb : Nat) (h : Heap) (f j : Nat) : Prop where
  lt : j < 48
  list : Links h.mem ((stdPool pb).head j) [f] ((stdPool pb).head j)
  lists : ∀ i, i < 48 → i ≠ j → Links h.mem ((stdPool pb).head i) [] ((stdPool pb).head i)
  status : ∀ i, h.status i = decide (i = j)

theorem nodes_of {pb f j : Nat} (hpb : 0 < pb) (hf : pb + 1536 ≤ f) (hlt : f + 32 < W64) (hj : j < 48) :
    NodesOK [f, (stdPool pb).head j] ∧ [f, (stdPool pb).head j].Nodup := by
  have hh : (stdPool pb).head j = pb + 32 * j := rfl
  rw [hh]
  refine ⟨⟨?_, ?_, ?_⟩, ?_⟩
  · intro a ha b hb hne
    simp only [List.mem_cons, List.not_mem_nil, or_false] at ha hb
    unfold Sep
    rcases ha with rfl | rfl <;> rcases hb with rfl | rfl <;> omega
  · intro a ha
    simp only [List.mem_cons, List.not_mem_nil, or_false] at ha
    rcases ha with rfl | rfl <;> omega
  · intro a ha
    simp only [List.mem_cons, List.not_mem_nil, or_false] at ha
    rcases ha with rfl | rfl <;> omega
  · simp; omega

theorem links_agree {m m' : Mem} {h : Nat} (H : Links m h [] h) (a : AgreeOn m m' (h + 16) 16) :
    Links m' h [] h := by
  refine links_frame H ?_ ?_
  · intro n hn
    rw [List.mem_singleton] at hn; subst hn
    exact readLE_congr (a.sub (by omega) (by omega))
  · intro n hn
    rw [List.nil_append, List.mem_singleton] at hn; subst hn
    exact readLE_congr (a.sub (by omega) (by omega))

theorem NoFree.congr {pb : Nat} {h : Heap} {m' : Mem} (H : NoFree pb h)
    (a : ∀ x, PoolAt pb x → m' x = h.mem x) : NoFree pb ⟨m', h.status⟩ := by
  refine ⟨fun i hi => links_agree (H.lists i hi) ?_, H.status⟩
  intro x h1 h2
  have hh : (stdPool pb).head i = pb + 32 * i := rfl
  rw [hh] at h1 h2
  exact a x (by unfold PoolAt; omega)

/-- Insertion of a chunk in an empty pool. -/
theorem insert_first {pb : Nat} {h : Heap} {f c p : Nat} (N : NoFree pb h) (H : HdrAt h.mem f c p 1)
    (hpb : 0 < pb) (hf : pb + 1536 ≤ f) (hlt : f + 32 < W64) (h1 : 32 ≤ c) (h2 : c < W63) :
    ∃ h' j, freeListInsert (stdPool pb) h f false = .ok h' ∧ IsStoreClass c j ∧ OneFree pb h' f j ∧
      HdrAt h'.mem f c p 0 ∧ ∀ x, ¬ PoolAt pb x → (x < f + 15 ∨ f + 32 ≤ x) → h'.mem x = h.mem x := by
  obtain ⟨j, ej, cj⟩ := insertIdx_spec h1 h2
  have hj := cj.lt
  obtain ⟨n1, n2⟩ := nodes_of hpb hf hlt hj
  obtain ⟨m1, hm1⟩ : ∃ m1, m1 = setState h.mem (f + 15) SFREE := ⟨_, rfl⟩
  have f1 : ∀ x, x ≠ f + 15 → m1 x = h.mem x := by
    intro x hx; rw [hm1]; exact setState_other hx
  have hh : ∀ i, (stdPool pb).head i = pb + 32 * i := fun _ => rfl
  have L1 : ∀ i, i < 48 → Links m1 ((stdPool pb).head i) [] ((stdPool pb).head i) := by
    intro i hi
    refine links_agree (N.lists i hi) ?_
    intro x g1 g2
    rw [hh] at g1 g2
    exact f1 x (by omega)
  obtain ⟨m2, e2, L2, O2⟩ := linkChunk_start (L1 j hj) n1 n2
  have hO : ∀ x, (x < f + 16 ∨ f + 32 ≤ x) → (x < pb + 32 * j + 16 ∨ pb + 32 * j + 32 ≤ x) → m2 x = m1 x := by
    intro x g1 g2
    refine O2 x ?_
    intro a ha
    simp only [List.mem_cons, List.not_mem_nil, or_false, hh] at ha
    rcases ha with rfl | rfl <;> omega
  refine ⟨⟨m2, setStatus h.status j true⟩, j, ?_, cj, ⟨hj, L2, ?_, ?_⟩, ?_, ?_⟩
  · unfold freeListInsert
    have e : insertIdx (stdPool pb).sizes (stdPool pb).nb (stdPool pb).analytic (hSize h.mem f) = .ok (j : Int) := by
      rw [H.size]; exact ej
    rw [e, Outcome.ok_bind, if_neg (by omega)]
    simp only [Int.toNat_natCast]
    rw [← hm1, e2]
    rfl
  · intro i hi hne
    refine links_agree (L1 i hi) ?_
    intro x g1 g2
    rw [hh] at g1 g2
    exact hO x (by omega) (by omega)
  · intro i
    show setStatus h.status j true i = _
    unfold setStatus
    rw [N.status]
    by_cases e : i = j <;> simp [e]
  · have H1 : HdrAt m1 f c p 0 := by rw [hm1]; exact H.setState (by omega) (by decide)
    refine H1.congr ?_ ?_ <;> intro x g1 g2 <;> exact hO x (by omega) (by omega)
  · intro x g1 g2
    unfold PoolAt at g1
    show m2 x = _
    rw [hO x (by omega) (by omega), f1 x (by omega)]

/-- The search in a pool with one free chunk of at most 2 MB: it is found iff it is large enough. -/
theorem search_only {pb : Nat} {h : Heap} {f c p j n : Nat} (N : OneFree pb h f j) (H : HdrAt h.mem f c p 0)
    (hs : IsStoreClass c j) (hf : pb + 1536 ≤ f) (h1 : 32 ≤ c) (h2 : c ≤ MB2) (hn : calcChunkSize n < W63) :
    findFreeChunk (stdPool pb) h n = if calcChunkSize n ≤ c then (do
        let s ← freeListRemove (stdPool pb) h f
        pure (s, f)) else .ok (h, 0) := by
  have hh : ∀ i, (stdPool pb).head i = pb + 32 * i := fun _ => rfl
  have hj := N.lt
  have hW : MB2 < W63 := by decide
  have hge : 32 ≤ calcChunkSize n := calc_ge n
  obtain ⟨d, hd⟩ : ∃ d, d = calcChunkSize n := ⟨_, rfl⟩
  rw [← hd] at hn hge
  have inJ : findAdapted h.mem ((stdPool pb).head j) d = .ok (if d ≤ c then f else 0) := by
    unfold findAdapted
    rw [findLoop_spec N.list (by
      intro a ha
      rw [List.mem_singleton] at ha
      subst ha
      rw [hh]; omega)]
    by_cases e : d ≤ c
    · have : toS d ≤ toS c := by rw [toS_eq hn, toS_eq (by omega)]; omega
      simp [H.size, e, this]
    · have : ¬ toS d ≤ toS c := by rw [toS_eq hn, toS_eq (by omega)]; omega
      simp [H.size, e, this]
  have notIn : ∀ i, i < 48 → i ≠ j → findAdapted h.mem ((stdPool pb).head i) d = .ok 0 := by
    intro i hi hne
    unfold findAdapted
    rw [findLoop_spec (N.lists i hi hne) (by simp)]
    rfl
  obtain ⟨k, k1, k2⟩ := searchClass_exists hge hn
  have js : j ≤ 42 ∧ ftbl j ≤ c ∧ (j < 42 → c < ftbl (j + 1)) := by
    rcases hs with ⟨_, a, b, d⟩ | ⟨a, _⟩
    · exact ⟨a, b, d⟩
    · omega
  have kb : k < 45 := by
    rcases k2 with k2 | k2
    · have := k2.1; omega
    · omega
  have hkj : (d ≤ c → k ≤ j + 1) ∧ (¬ d ≤ c → j < k) := by
    refine ⟨fun e => ?_, fun e => ?_⟩
    · by_contra hne
      rcases k2 with ⟨k2, k3, k4⟩ | k2
      · have := k4 (j + 1) (by omega)
        have := js.2.2 (by omega)
        omega
      · omega
    · by_contra hne
      rcases k2 with ⟨k2, k3, k4⟩ | k2
      · have := ftbl_mono (show k ≤ j by omega)
        omega
      · omega
  have hst : ∀ l : List Nat, l.find? h.status = if j ∈ l then some j else none := by
    intro l
    induction l with
    | nil => rfl
    | cons a l ih =>
      rw [List.find?_cons, N.status, ih]
      by_cases e : a = j
      · subst e; simp
      · have e' : ¬ j = a := fun h => e h.symm
        simp [e, e']
  have hfe : firstNonEmpty h.status k 44 = if k ≤ j then some j else none := by
    unfold firstNonEmpty
    rw [hst]
    have : j ∈ List.range' k (44 - k) ↔ k ≤ j := by
      rw [List.mem_range'_1]; omega
    simp only [this]
  unfold findFreeChunk
  rw [← hd]
  have e : getFreeList (stdPool pb).sizes (stdPool pb).nb (stdPool pb).analytic d = .ok (k : Int) := k1
  simp only [e, Outcome.ok_bind]
  rw [if_neg (by omega)]
  simp only [Int.toNat_natCast]
  have e' : firstNonEmpty h.status k (stdPool pb).nb = _ := hfe
  rw [e']
  by_cases hle : k ≤ j
  · have hdc : d ≤ c := by
      by_contra g
      have := hkj.2 g
      omega
    rw [if_pos hle, if_pos hdc]
    simp only [inJ, if_pos hdc, Outcome.ok_bind]
    rw [if_neg (by omega)]
    simp only [Outcome.ok_bind]
    rw [if_pos (by omega)]
  · rw [if_neg hle]
    simp only [Outcome.ok_bind]
    rw [if_pos (⟨trivial, by omega⟩ : True ∧ k ≠ 0)]
    by_cases hdc : d ≤ c
    · have : k - 1 = j := by have := hkj.1 hdc; omega
      rw [this, inJ, if_pos hdc, if_pos hdc, Outcome.ok_bind, if_pos (by omega)]
    · rw [if_neg hdc]
      have : findAdapted h.mem ((stdPool pb).head (k - 1)) d = .ok 0 := by
        by_cases g : k - 1 = j
        · rw [g, inJ, if_neg hdc]
        · exact notIn _ (by omega) g
      rw [this, Outcome.ok_bind, if_neg (by omega)]
      rfl

/-- Removal of the only free chunk. -/
theorem remove_only {pb : Nat} {h : Heap} {f c p j : Nat} (N : OneFree pb h f j) (H : HdrAt h.mem f c p 0)
    (hpb : 0 < pb) (hf : pb + 1536 ≤ f) (hlt : f + 32 < W64) :
    ∃ h', freeListRemove (stdPool pb) h f = .ok h' ∧ NoFree pb h' ∧ HdrAt h'.mem f c p 1 ∧
      ∀ x, ¬ PoolAt pb x → (x < f + 15 ∨ f + 32 ≤ x) → h'.mem x = h.mem x := by
  have hh : ∀ i, (stdPool pb).head i = pb + 32 * i := fun _ => rfl
  have hj := N.lt
  obtain ⟨n1, n2⟩ := nodes_of hpb hf hlt hj
  obtain ⟨m1, e1, O1, L1⟩ := freeListRemove_spec (P := stdPool pb) (s := h) (l1 := []) (l2 := []) hj N.list n1 n2
  obtain ⟨m2, hm2⟩ : ∃ m2, m2 = setState m1 (f + 15) SALLOC := ⟨_, rfl⟩
  rw [← hm2] at e1 L1
  have hO : ∀ x, (x < f + 16 ∨ f + 32 ≤ x) → (x < pb + 32 * j + 16 ∨ pb + 32 * j + 32 ≤ x) → m1 x = h.mem x := by
    intro x g1 g2
    refine O1 x ?_
    intro a ha
    simp only [List.nil_append, List.mem_cons, List.not_mem_nil, or_false, hh] at ha
    rcases ha with rfl | rfl <;> omega
  have f2 : ∀ x, x ≠ f + 15 → m2 x = m1 x := by
    intro x hx; rw [hm2]; exact setState_other hx
  refine ⟨⟨m2, setStatus h.status j false⟩, e1, ⟨?_, ?_⟩, ?_, ?_⟩
  · intro i hi
    by_cases e : i = j
    · subst e; exact L1
    · refine links_agree (N.lists i hi e) ?_
      intro x g1 g2
      rw [hh] at g1 g2
      show m2 x = _
      rw [f2 x (by omega), hO x (by omega) (by omega)]
  · intro i
    show setStatus h.status j false i = false
    unfold setStatus
    rw [N.status]
    by_cases e : i = j <;> simp [e]
  · have H1 : HdrAt m1 f c p 0 := by
      refine H.congr ?_ ?_ <;> intro x g1 g2 <;> exact hO x (by omega) (by omega)
    show HdrAt m2 f c p 1
    rw [hm2]
    exact H1.setState (by omega) (by decide)
  · intro x g1 g2
    unfold PoolAt at g1
    show m2 x = _
    rw [f2 x (by omega), hO x (by omega) (by omega)]

/-- The cut of a chunk of `c` bytes for a request that rounds to `z = c + k` bytes, `k` more than there are: the
residue has `2^64 - k` bytes. -/
theorem split_odd {m : Mem} {f c n k z : Nat} (H : HdrAt m f c 0 1) (hc : alignSize16 (calcChunkSize n) = z)
    (hz : z = c + k) (hk : 0 < k) (hk' : k < 16) (h0 : 0 < f) (h1 : 32 ≤ c)
    (hlt : f + c + 64 < 281474976710656) :
    ∃ m', splitFreeBloc m (f + 15) n = .ok (m', f + 15, f + z + 15) ∧
      HdrAt m' f z 0 1 ∧ HdrAt m' (f + z) (W56 - k) z 1 ∧
      ∀ x, x < f ∨ (f + 16 ≤ x ∧ x < f + z) ∨ (f + z + 16 ≤ x ∧ x < 281474976710656) → m' x = m x := by
  have ecut := hc
  have eres : sub64 c z = W64 - k := by unfold sub64; omega
  obtain ⟨m1, hm1⟩ : ∃ m1, m1 = setupLargeHeader m (f + z) (W64 - k) f := ⟨_, rfl⟩
  obtain ⟨m2, hm2⟩ : ∃ m2, m2 = setupLargeHeader m1 f z f := ⟨_, rfl⟩
  obtain ⟨m3, hm3⟩ : ∃ m3, m3 = setPrevSize m2 (f + z + (W56 - k)) (W64 - k) := ⟨_, rfl⟩
  have f1 : ∀ x, x < f + z ∨ f + z + 16 ≤ x → m1 x = m x := by
    intro x hx; rw [hm1]; exact setupLargeHeader_other hx
  have f2 : ∀ x, x < f ∨ f + 16 ≤ x → m2 x = m1 x := by
    intro x hx; rw [hm2]; exact setupLargeHeader_other hx
  have f3 : ∀ x, x < 281474976710656 → m3 x = m2 x := by
    intro x hx; rw [hm3]; unfold setPrevSize; exact writeLE_other (by omega)
  have hh1 : HdrAt m1 f c 0 1 :=
    H.congr (fun x h1 h2 => f1 x (by omega)) (fun x h1 h2 => f1 x (by omega))
  have hr1 : HdrAt m1 (f + z) (W56 - k) z 1 := by
    have := setupLargeHeader_hdr m (f + z) (W64 - k) f
    rw [← hm1, prevField_eq (by omega) (by omega) (by omega) (by omega)] at this
    have e1 : (W64 - k) % W56 = W56 - k := by omega
    rw [e1] at this
    simpa using this
  have hr2 : HdrAt m2 (f + z) (W56 - k) z 1 :=
    hr1.congr (fun x h1 h2 => f2 x (by omega)) (fun x h1 h2 => f2 x (by omega))
  have hc2 : HdrAt m2 f z 0 1 := by
    have := setupLargeHeader_hdr m1 f z f
    rw [← hm2, Nat.mod_eq_of_lt (by omega)] at this
    simpa using this
  refine ⟨m3, ?_, ?_, ?_, ?_⟩
  · unfold splitFreeBloc
    rw [ecut, getSize_large H (by omega)]
    simp only
    rw [eres, if_pos (by omega)]
    simp only [getPtr_large H (by omega : f + 16 < W64), Outcome.ok_bind, setupChunk]
    rw [add64_eq (by omega : f + z < W64), ← hm1]
    simp only [getPtr_large hh1 (by omega : f + 16 < W64), Outcome.ok_bind]
    have es : sub64 f 0 = f := by rw [sub64_eq (by omega) (by omega)]; rfl
    rw [getPrevSize_large hh1 (by omega), es, ← hm2, largeToV_eq (by omega : f + z + 16 < W64),
      getNextChunk_large hr2 (by omega) (by omega)]
    rw [vLarge_eq (by omega), ← hm3, largeToV_eq (by omega)]
    rfl
  · exact hc2.congr (fun x h1 h2 => f3 x (by omega)) (fun x h1 h2 => f3 x (by omega))
  · exact hr2.congr (fun x h1 h2 => f3 x (by omega)) (fun x h1 h2 => f3 x (by omega))
  · intro x hx
    rw [f3 x (by omega), f2 x (by omega), f1 x (by omega)]

/-- The cut of a chunk that is large enough for a residue. -/
theorem split_fit {m : Mem} {f c n z : Nat} (H : HdrAt m f c 0 1) (hz : alignSize16 (calcChunkSize n) = z)
    (h0 : 0 < f) (h1 : 32 ≤ z) (h2 : z + 32 ≤ c) (hlt : f + c + 64 < 281474976710656) :
    ∃ m', splitFreeBloc m (f + 15) n = .ok (m', f + 15, f + z + 15) ∧
      HdrAt m' f z 0 1 ∧ HdrAt m' (f + z) (c - z) z 1 ∧
      ∀ x, x < f ∨ f + c + 15 ≤ x → m' x = m x := by
  obtain ⟨m1, hm1⟩ : ∃ m1, m1 = setupLargeHeader m (f + z) (c - z) f := ⟨_, rfl⟩
  obtain ⟨m2, hm2⟩ : ∃ m2, m2 = setupLargeHeader m1 f z f := ⟨_, rfl⟩
  obtain ⟨m3, hm3⟩ : ∃ m3, m3 = setPrevSize m2 (f + c) (c - z) := ⟨_, rfl⟩
  have f1 : ∀ x, x < f + z ∨ f + z + 16 ≤ x → m1 x = m x := by
    intro x hx; rw [hm1]; exact setupLargeHeader_other hx
  have f2 : ∀ x, x < f ∨ f + 16 ≤ x → m2 x = m1 x := by
    intro x hx; rw [hm2]; exact setupLargeHeader_other hx
  have f3 : ∀ x, x < f + c + 8 ∨ f + c + 15 ≤ x → m3 x = m2 x := by
    intro x hx; rw [hm3]; unfold setPrevSize; exact writeLE_other (by omega)
  have hh1 : HdrAt m1 f c 0 1 :=
    H.congr (fun x h1 h2 => f1 x (by omega)) (fun x h1 h2 => f1 x (by omega))
  have hr1 : HdrAt m1 (f + z) (c - z) z 1 := by
    have := setupLargeHeader_hdr m (f + z) (c - z) f
    rw [← hm1, prevField_eq (by omega) (by omega) (by omega) (by omega), Nat.mod_eq_of_lt (by omega)] at this
    simpa using this
  have hr2 : HdrAt m2 (f + z) (c - z) z 1 :=
    hr1.congr (fun x h1 h2 => f2 x (by omega)) (fun x h1 h2 => f2 x (by omega))
  have hc2 : HdrAt m2 f z 0 1 := by
    have := setupLargeHeader_hdr m1 f z f
    rw [← hm2, Nat.mod_eq_of_lt (by omega)] at this
    simpa using this
  refine ⟨m3, ?_, ?_, ?_, ?_⟩
  · unfold splitFreeBloc
    rw [hz, getSize_large H (by omega)]
    simp only
    rw [sub64_eq (by omega) (by omega), if_pos (by omega)]
    simp only [getPtr_large H (by omega : f + 16 < W64), Outcome.ok_bind, setupChunk]
    rw [add64_eq (by omega : f + z < W64), ← hm1]
    simp only [getPtr_large hh1 (by omega : f + 16 < W64), Outcome.ok_bind]
    have es : sub64 f 0 = f := by rw [sub64_eq (by omega) (by omega)]; rfl
    rw [getPrevSize_large hh1 (by omega), es, ← hm2, largeToV_eq (by omega : f + z + 16 < W64),
      getNextChunk_large hr2 (by omega) (by omega)]
    have e1 : f + z + (c - z) = f + c := by omega
    rw [e1, vLarge_eq (by omega), ← hm3, largeToV_eq (by omega)]
    rfl
  · exact hc2.congr (fun x h1 h2 => f3 x (by omega)) (fun x h1 h2 => f3 x (by omega))
  · exact hr2.congr (fun x h1 h2 => f3 x (by omega)) (fun x h1 h2 => f3 x (by omega))
  · intro x hx
    rw [f3 x (by omega), f2 x (by omega), f1 x (by omega)]

/-- A refill of an empty chain without regions. -/
theorem refill_first {pb : Nat} {s : CS σ} {b sz : Nat} (hp : s.c.pool = stdPool pb) (N : NoFree pb s.heap)
    (hnr : s.c.noRegion = true) (hpb : 0 < pb) (hf : pb + 1536 ≤ b) (h1 : 80 < sz) (h2 : b + sz < 281474976710656) :
    ∃ h' j, userRefill s b sz = .ok (refilled s h' s.w.regs b sz) ∧
      IsStoreClass (sz - 48) j ∧ OneFree pb h' (b + 32) j ∧ HdrAt h'.mem (b + 32) (sz - 48) 0 0 ∧
      ∀ x, ¬ PoolAt pb x → (x < b ∨ b + sz ≤ x) → h'.mem x = s.w.mem x := by
  obtain ⟨q1, q2, q3⟩ := setupMacroBloc_spec s.w.mem (b := b) (sz := sz) (by omega)
  obtain ⟨m0, hm0⟩ : ∃ m0, m0 = setupMacroBloc s.w.mem b sz := ⟨_, rfl⟩
  rw [← hm0] at q1 q2 q3
  have e1 : add64 b 32 = b + 32 := add64_eq (by omega)
  have e2 : sub64 (sub64 sz 32) 16 = sz - 48 := by
    rw [sub64_eq (a := sz) (by omega) (by omega), sub64_eq (by omega) (by omega)]; omega
  have e3 : sub64 (add64 b sz) 16 = b + sz - 16 := by
    rw [add64_eq (by omega), sub64_eq (by omega) (by omega)]
  have e4 : largeToV (b + 32) = b + 47 := by rw [largeToV_eq (by omega)]
  obtain ⟨m1, hm1⟩ : ∃ m1, m1 = setupLargeHeader m0 (b + 32) (sz - 48) 0 := ⟨_, rfl⟩
  obtain ⟨m2, hm2⟩ : ∃ m2, m2 = createStopper m1 (b + sz - 16) (b + 32) := ⟨_, rfl⟩
  have f1 : ∀ x, x < b + 32 ∨ b + 48 ≤ x → m1 x = m0 x := by
    intro x hx; rw [hm1]; exact setupLargeHeader_other (by omega)
  have f2 : ∀ x, x < b + sz - 16 ∨ b + sz ≤ x → m2 x = m1 x := by
    intro x hx; rw [hm2]; exact createStopper_other (by omega)
  have k3 : HdrAt m1 (b + 32) (sz - 48) 0 1 := by
    have := setupLargeHeader_hdr m0 (b + 32) (sz - 48) 0
    rw [← hm1, Nat.mod_eq_of_lt (by omega)] at this
    simpa [prevField] using this
  have k4 : HdrAt m2 (b + 32) (sz - 48) 0 1 :=
    k3.congr (fun x h1 h2 => f2 x (by omega)) (fun x h1 h2 => f2 x (by omega))
  have N2 : NoFree pb ⟨m2, s.c.status⟩ := by
    refine NoFree.congr (h := s.heap) N ?_
    intro x hx
    unfold PoolAt at hx
    rw [f2 x (by omega), f1 x (by omega), q3 x (by omega)]
    rfl
  obtain ⟨h', j, i1, i2, i3, i4, i5⟩ := insert_first N2 k4 hpb (by omega) (by omega) (by omega) (by omega)
  have ep : prepareBloc (s.setMem m0) b = .ok (s.setMem m2, b + 47) := by
    unfold prepareBloc
    rw [if_neg (by omega)]
    simp only [setupChunk]
    have q1' : hSize (s.setMem m0).w.mem b = sz := q1
    have q0 : (s.setMem m0).w.mem = m0 := rfl
    have hn : (s.setMem m0).c.noRegion = true := hnr
    rw [q1', e1, e2, e3, e4, q0, ← hm1, ← hm2, if_pos hn]
    rfl
  refine ⟨h', j, ?_, i2, i3, i4, ?_⟩
  · unfold userRefill
    rw [if_neg (by omega), if_neg (by omega), if_pos (by omega), ← hm0]
    simp only
    rw [ep, Outcome.ok_bind]
    have ev : vLarge (b + 47) = b + 32 := vLarge_eq (h := b + 32) (by omega)
    have hp2 : (s.setMem m2).c.pool = stdPool pb := hp
    have hh2 : (s.setMem m2).heap = ⟨m2, s.c.status⟩ := rfl
    simp only
    rw [ev, hp2, hh2, i1, Outcome.ok_bind, Outcome.pure_eq, Outcome.ok_bind, add64_eq (by omega)]
    by_cases hb : s.c.base = 0
    · simp [CS.setHeap, CS.setMem, refilled, hb]
    · simp [CS.setHeap, CS.setMem, refilled, hb]
  · intro x g1 g2
    rw [i5 x g1 (by omega)]
    show m2 x = _
    rw [f2 x (by omega), f1 x (by omega), q3 x (by omega)]

/-- `x` is neither in the structure of the chain (its list heads at `pb`) nor in the buffer. -/
def Outside (pb b sz x : Nat) : Prop := ¬ PoolAt pb x ∧ (x < b ∨ b + sz ≤ x)

/-- State after the initialisation of a chain over the buffer `[b, b + sz)`. -/
structure Started (pb b sz : Nat) (w : World σ) (s : CS σ) (j : Nat) : Prop where
  pool : s.c.pool = stdPool pb
  dead : s.c.dead = false
  src : s.c.hasSrc = false
  cls : IsStoreClass (sz - 48) j
  one : OneFree pb s.heap (b + 32) j
  hdr : HdrAt s.w.mem (b + 32) (sz - 48) 0 0
  out : ∀ x, Outside pb b sz x → s.w.mem x = w.mem x

theorem started (w : World σ) (addr : Nat) {pb b sz : Nat} (hpb : 0 < pb) (hf : pb + 1536 ≤ b) (h1 : 80 < sz)
    (h2 : b + sz < 281474976710656) :
    ∃ s j, standaloneInit w addr pb b sz = .ok s ∧ s.c.lock = false ∧ Started pb b sz w s j := by
  obtain ⟨s0, e0, I, r1, r2, r3, r4, r5, r6, r7, r8, r9, r10, r11, r12, r13⟩ :=
    chainBaseInit_ok w (addr := addr) true false true hpb (by omega : pb + 1536 < W64)
  have N : NoFree pb s0.heap := by
    refine ⟨fun i hi => I.mem.lists i hi, fun i => ?_⟩
    have e1 := congrArg (fun o => o) e0
    unfold chainBaseInit at e1
    obtain ⟨⟨h, P⟩, t1, t2⟩ := Outcome.bind_eq_ok e1
    unfold threadPoolInit at t1
    rw [initNb_freeSizes, Outcome.ok_bind] at t1
    have t3 := (Prod.mk.inj (Outcome.ok.inj t1)).1
    have t4 := Outcome.ok.inj t2
    rw [← t4, ← t3]
    rfl
  obtain ⟨h', j, q1, q2, q3, q4, q5⟩ := refill_first I.pool N r6 hpb hf h1 h2
  refine ⟨{ refilled s0 h' s0.w.regs b sz with c := { (refilled s0 h' s0.w.regs b sz).c with hasSrc := false } },
    j, ?_, I.lock, ?_⟩
  · unfold standaloneInit userInit
    rw [e0, Outcome.ok_bind, if_pos (by omega), q1, Outcome.ok_bind]
    rfl
  · exact ⟨I.pool, I.dead, rfl, q2, q3, q4, fun x hx => by
      show h'.mem x = _
      rw [q5 x hx.1 hx.2, r13 x hx.1]⟩

/-- No chunk is large enough. -/
theorem locked_none (S : Source σ) {w : World σ} {s : CS σ} {pb b sz j n : Nat} (I : Started pb b sz w s j)
    (hf : pb + 1536 ≤ b) (h1 : 80 < sz) (h2 : sz ≤ MB2 + 48) (hn : calcChunkSize n < W63)
    (hlt : sz - 48 < calcChunkSize n) : allocLocked S s n = .ok (s, 0) := by
  have e := search_only I.one I.hdr I.cls (by omega) (by omega) (by omega) hn
  rw [if_neg (by omega)] at e
  have er : refillMem S s (calcChunkSize n) = .ok (s, false) := by
    unfold refillMem requestMem
    simp [I.src]
  unfold allocLocked
  rw [I.pool, e, Outcome.ok_bind]
  simp only [CS.setHeap_heap]
  rw [if_pos trivial, er]
  rfl

/-- The chunk is taken, cut into one of `z` bytes and a residue of `r` bytes at `b + 32 + z`. -/
structure Cut (b z r : Nat) (h' : Heap) : Prop where
  hdr : HdrAt h'.mem (b + 32) z 0 1
  res : HdrAt h'.mem (b + 32 + z) r z 0

/-- The part after the search. -/
theorem locked_found (S : Source σ) {w : World σ} {s : CS σ} {pb b sz j n z r : Nat} (I : Started pb b sz w s j)
    (hpb : 0 < pb) (hf : pb + 1536 ≤ b) (h1 : 80 < sz) (h2 : sz ≤ MB2 + 48) (hb : b + sz + 64 < 281474976710656)
    (hle : calcChunkSize n ≤ sz - 48) (hz : calcChunkSize n ≤ z) (hz2 : z < sz + 16) (hr1 : 32 ≤ r) (hr2 : r < W63)
    (hs : ∀ m, HdrAt m (b + 32) (sz - 48) 0 1 → ∃ m', splitFreeBloc m (b + 32 + 15) n = .ok (m', b + 32 + 15, b + 32 + z + 15) ∧
      HdrAt m' (b + 32) z 0 1 ∧ HdrAt m' (b + 32 + z) r z 1 ∧
      ∀ x, PoolAt pb x ∨ x < b + 32 ∨ (b + 32 + z + 16 ≤ x ∧ b + sz ≤ x ∧ x < 281474976710656) → m' x = m x) :
    ∃ h', allocLocked S s n = .ok (s.setHeap h', b + 47) ∧ Cut b z r h' ∧
      ∀ x, ¬ PoolAt pb x → x < b ∨ (b + 32 + z + 32 ≤ x ∧ b + sz ≤ x ∧ x < 281474976710656) → h'.mem x = s.w.mem x := by
  have hge := calc_ge n
  have e := search_only I.one I.hdr I.cls (by omega) (by omega) (by omega) (by omega : calcChunkSize n < W63)
  rw [if_pos hle] at e
  obtain ⟨h1', e1, N1, H1, f1⟩ := remove_only I.one I.hdr hpb (by omega) (by omega)
  rw [e1, Outcome.ok_bind] at e
  obtain ⟨m2, e2, H2, R2, f2⟩ := hs _ H1
  have N2 : NoFree pb ⟨m2, h1'.status⟩ := N1.congr (fun x hx => f2 x (Or.inl hx))
  obtain ⟨h', j', e3, c3, O3, R3, f3⟩ := insert_first N2 R2 hpb (by omega) (by omega) hr1 hr2
  have H3 : HdrAt h'.mem (b + 32) z 0 1 := by
    refine H2.congr ?_ ?_ <;> intro x g1 g2 <;> exact f3 x (by unfold PoolAt; omega) (by omega)
  refine ⟨h', ?_, ⟨H3, R3⟩, ?_⟩
  · unfold allocLocked
    rw [I.pool, e]
    simp only [Outcome.pure_eq, Outcome.ok_bind]
    rw [if_neg (by omega)]
    simp only [Outcome.ok_bind]
    rw [if_neg (by omega)]
    have hsz : hSize (s.setHeap h1').w.mem (b + 32) = sz - 48 := H1.size
    rw [if_neg (by rw [hsz]; omega), largeToV_eq (by omega), CS.setHeap_mem, e2, Outcome.ok_bind]
    simp only
    have hg : getSize ((s.setHeap h1').setMem m2).w.mem (b + 32 + 15) = z := getSize_large H2 (by omega)
    rw [hg, if_neg (by omega), if_pos (by omega), vLarge_eq (by omega)]
    have hp2 : ((s.setHeap h1').setMem m2).c.pool = stdPool pb := I.pool
    have hh2 : ((s.setHeap h1').setMem m2).heap = ⟨m2, h1'.status⟩ := rfl
    rw [hp2, hh2, e3]
    rfl
  · intro x g1 g2
    rw [f3 x g1 (by omega)]
    show m2 x = _
    rw [f2 x (by omega), f1 x g1 (by omega)]
    rfl

/-- The chunk is taken whole. -/
theorem locked_whole (S : Source σ) {w : World σ} {s : CS σ} {pb b sz j n : Nat} (I : Started pb b sz w s j)
    (hpb : 0 < pb) (hf : pb + 1536 ≤ b) (h1 : 80 < sz) (h2 : sz ≤ MB2 + 48) (hb : b + sz + 64 < 281474976710656)
    (hle : alignSize16 (calcChunkSize n) ≤ sz - 48) (hlt : sz - 48 < alignSize16 (calcChunkSize n) + 32)
    (hcl : calcChunkSize n ≤ sz - 48) :
    ∃ h', allocLocked S s n = .ok (s.setHeap h', b + 47) ∧ HdrAt h'.mem (b + 32) (sz - 48) 0 1 ∧
      ∀ x, ¬ PoolAt pb x → x < b ∨ b + sz ≤ x → h'.mem x = s.w.mem x := by
  have e := search_only I.one I.hdr I.cls (by omega) (by omega) (by omega) (by omega : calcChunkSize n < W63)
  rw [if_pos hcl] at e
  obtain ⟨h', e1, N1, H1, f1⟩ := remove_only I.one I.hdr hpb (by omega) (by omega)
  rw [e1, Outcome.ok_bind] at e
  have e2 : splitFreeBloc h'.mem (b + 32 + 15) n = .ok (h'.mem, b + 32 + 15, 0) := by
    unfold splitFreeBloc
    rw [getSize_large H1 (by omega)]
    simp only
    rw [sub64_eq (by omega) (by omega), if_neg (by omega)]
    rfl
  refine ⟨h', ?_, H1, ?_⟩
  · unfold allocLocked
    rw [I.pool, e]
    simp only [Outcome.pure_eq, Outcome.ok_bind]
    rw [if_neg (by omega)]
    simp only [Outcome.ok_bind]
    rw [if_neg (by omega)]
    have hsz : hSize (s.setHeap h').w.mem (b + 32) = sz - 48 := H1.size
    rw [if_neg (by rw [hsz]; omega), largeToV_eq (by omega), CS.setHeap_mem, e2, Outcome.ok_bind]
    simp only
    have hg : getSize ((s.setHeap h').setMem h'.mem).w.mem (b + 32 + 15) = sz - 48 := getSize_large H1 (by omega)
    rw [hg, if_neg (by omega), if_neg (by omega)]
    rfl
  · intro x g1 g2
    exact f1 x g1 (by omega)

/-- From the locked part to the whole call. -/
theorem align_of_locked (S : Source σ) {s : CS σ} {n B v : Nat} {h' : Heap} (h1 : s.c.dead = false)
    (h2 : s.c.lock = false) (h3 : s.c.hasSrc = false) (hn : n ≠ 0)
    (e : allocLocked S { s with c := { s.c with lock := s.c.threadSafe } } (if B > 1 then add64 n B else n) =
      .ok (({ s with c := { s.c with lock := s.c.threadSafe } } : CS σ).setHeap h', v)) :
    allocAlign S s B n = .ok (if v = 0 then (s.setHeap h', 0) else padAndReturn (s.setHeap h') v B) := by
  unfold allocAlign
  rw [if_neg (by simp [h1]), if_neg hn]
  simp only
  have hh : isHuge s.c (if B > 1 then add64 n B else n) = false := by unfold isHuge; simp [h3]
  rw [hh, if_neg (by simp), lockIf_ok h1 h2, Outcome.ok_bind, e, Outcome.ok_bind]
  simp only
  rw [unlockIf_ok h1 h2, Outcome.ok_bind]
  by_cases hv : v = 0 <;> simp [hv]

theorem Started.setLock {w : World σ} {s : CS σ} {pb b sz j : Nat} (I : Started pb b sz w s j) (l : Bool) :
    Started pb b sz w { s with c := { s.c with lock := l } } j :=
  ⟨I.pool, I.dead, I.src, I.cls, I.one, I.hdr, I.out⟩

end MpcAlloc
