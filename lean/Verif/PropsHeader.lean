import Verif.Header

/-
Properties C16 (size classes), C17 (chunk headers) and C18 (pad headers).
-/

namespace MpcAlloc

/-! ### C16 -/

/-- `k` is the position of the smallest entry of table `t` that is at least `size`. -/
def Smallest (t : List Int) (size k : Nat) : Prop :=
  (∃ v, t[k]? = some v ∧ (size : Int) ≤ v) ∧ ∀ j, j < k → ∃ v, t[j]? = some v ∧ v < (size : Int)

theorem freeSizes_at {i : Nat} (h : i ≤ 42) : freeSizes[i]? = some ((ftbl i : Nat) : Int) := by
  have := freeSizes_get h
  unfold tblGet at this
  rw [if_pos (by omega)] at this
  simp only [Int.toNat_natCast] at this
  cases h2 : freeSizes[i]? with
  | none => rw [h2] at this; cases this
  | some v => rw [h2] at this; simp only [Outcome.ok.injEq] at this; rw [this]

theorem smallest_of_class {size k : Nat} (h : IsClass size k) : Smallest freeSizes size k := by
  obtain ⟨h1, h2, h3⟩ := h
  refine ⟨⟨_, freeSizes_at h1, by omega⟩, fun j hj => ⟨_, freeSizes_at (by omega), ?_⟩⟩
  have := h3 j hj
  omega

/-- C16: from 32 bytes to 2 MB both lookups end and give the smallest class at least as large as the size. Above
2 MB the constant time lookup ends too, with one of the last two lists. (The binary search does not end there, see
`C16_refuted`.) -/
theorem C16_lookup_exact_partial {size : Nat} (h1 : 32 ≤ size) (h2 : size < W64) :
    (size ≤ MB2 → ∃ k : Nat, Smallest freeSizes size k ∧ getFreeListFast freeSizes size = .ok (k : Int) ∧
      getFreeListSlow freeSizes 44 size = .ok (k : Int)) ∧
    (MB2 < size → getFreeListFast freeSizes size = .ok 44 ∨ getFreeListFast freeSizes size = .ok 43) := by
  refine ⟨fun h => ?_, fun h => ?_⟩
  · obtain ⟨k, e, hk⟩ := getFreeListFast_small h1 h
    obtain ⟨k', e', hk'⟩ := getFreeListSlow_small h1 h
    rw [hk'.unique hk] at e'
    exact ⟨k, smallest_of_class hk, e, e'⟩
  · by_cases hs : size < W63
    · exact Or.inl (getFreeListFast_large h hs)
    · exact Or.inr (getFreeListFast_neg (by omega) h2)

/-- The class of 1500 bytes is number 32 (2048 bytes). -/
example : getFreeListFast freeSizes 1500 = .ok 32 ∧ Smallest freeSizes 1500 32 := by
  obtain ⟨k, h, e, _⟩ := (C16_lookup_exact_partial (size := 1500) (by omega) (by omega)).1 (by omega)
  have : getFreeListFast freeSizes 1500 = .ok 32 := by decide
  rw [this] at e
  simp only [Outcome.ok.injEq] at e
  have : k = 32 := by omega
  exact ⟨‹_›, this ▸ h⟩

/-- The binary search never ends for a chunk size above 2 MB. -/
theorem C16_refuted {size : Nat} (h1 : MB2 < size) (h2 : size < W63) :
    getFreeListSlow freeSizes 44 size = .diverge := by
  have g : ∀ i : Nat, i ≤ 42 → tblGet freeSizes (i : Int) = .ok (ftbl i : Nat) := fun i h => freeSizes_get h
  have step : ∀ p seg i : Nat, 0 < p + i → (∃ a, tblGet freeSizes ((p : Int) + i - 1) = .ok a) →
      (∃ b, tblGet freeSizes ((p : Int) + i) = .ok b ∧ b < (size : Int)) →
      slowLoop freeSizes (toS size) p seg i = slowLoop freeSizes (toS size) (p + i) (seg - i) ((seg - i) / 2) := by
    intro p seg i _ ⟨a, ha⟩ ⟨b, hb, hlt⟩
    conv => lhs; rw [slowLoop]
    rw [ha, Outcome.ok_bind, hb, Outcome.ok_bind, toS_eq h2, if_pos (Or.inr hlt), if_pos hlt]
  unfold getFreeListSlow
  rw [show tblGet freeSizes 0 = .ok 32 from rfl, Outcome.ok_bind, toS_eq h2, if_neg (by omega), ← toS_eq h2]
  rw [step 0 44 (44 / 2) (by omega) ⟨_, rfl⟩ ⟨_, rfl, by omega⟩]
  rw [step 22 22 11 (by omega) ⟨_, rfl⟩ ⟨_, rfl, by omega⟩]
  rw [step 33 11 5 (by omega) ⟨_, rfl⟩ ⟨_, rfl, by omega⟩]
  rw [step 38 6 3 (by omega) ⟨_, rfl⟩ ⟨_, rfl, by omega⟩]
  rw [step 41 3 1 (by omega) ⟨_, rfl⟩ ⟨_, rfl, by omega⟩]
  rw [step 42 2 1 (by omega) ⟨_, rfl⟩ ⟨_, rfl, by omega⟩]
  exact slowLoop_stuck (p := 43) (a := 2097152) (b := -1) rfl rfl (by rw [toS_eq h2]; omega)

/-! ### C17 -/

/-- C17, writing a header: `sctk_alloc_setup_large_header` on any memory gives a header whose size, distance to the
previous chunk, state, type and magic number read back as written, and changes no other byte. -/
theorem C17_header_round_trip (m : Mem) {a size prev : Nat} (hs : size < W56) (hp : prev ≤ a) (ha : a + 16 < W64)
    (hd : prev ≠ 0 → a - prev < W56) :
    hSize (setupLargeHeader m a size prev) a = size ∧
    hPrev (setupLargeHeader m a size prev) a = (if prev = 0 then 0 else a - prev) ∧
    infoState (setupLargeHeader m a size prev) (a + 15) = SALLOC ∧
    infoType (setupLargeHeader m a size prev) (a + 15) = TLARGE ∧
    infoMagic (setupLargeHeader m a size prev) (a + 15) = MAGIC ∧
    ∀ x, x < a ∨ a + 16 ≤ x → setupLargeHeader m a size prev x = m x := by
  have H := setupLargeHeader_hdr m a size prev
  refine ⟨?_, ?_, H.state (by omega), H.type, H.magic (by omega), fun x hx => setupLargeHeader_other hx⟩
  · rw [H.size, Nat.mod_eq_of_lt hs]
  · rw [H.prev]
    unfold prevField
    by_cases h0 : prev = 0
    · simp [h0]
    · by_cases h1 : prev = a
      · simp [h1]
      · rw [if_neg (by omega), if_neg h0, sub64_eq hp (by omega), Nat.mod_eq_of_lt (hd h0)]

example : (8192 : Nat) - 4096 < W56 ∧ (4096 : Nat) ≤ 8192 ∧ (8192 : Nat) + 16 < W64 := by omega

/-- C17, updating one field: writing the size, the distance to the previous chunk or the state of a chunk changes
that field only. -/
theorem C17_field_updates (m : Mem) (a v : Nat) (hv : v < W56) :
    (hSize (setSize m a v) a = v ∧ ∀ x, x < a ∨ a + 7 ≤ x → setSize m a v x = m x) ∧
    (hPrev (setPrevSize m a v) a = v ∧ ∀ x, x < a + 8 ∨ a + 15 ≤ x → setPrevSize m a v x = m x) ∧
    (∀ st, st < 2 → infoState (setState m (a + 15) st) (a + 15) = st ∧
      infoType (setState m (a + 15) st) (a + 15) = infoType m (a + 15) ∧
      infoMagic (setState m (a + 15) st) (a + 15) = infoMagic m (a + 15) ∧
      ∀ x, x ≠ a + 15 → setState m (a + 15) st x = m x) := by
  refine ⟨⟨?_, fun x hx => writeLE_other hx⟩, ⟨?_, fun x hx => ?_⟩, fun st hst => ?_⟩
  · unfold hSize setSize; rw [readLE_writeLE_same]; exact Nat.mod_eq_of_lt hv
  · unfold hPrev setPrevSize; rw [readLE_writeLE_same]; exact Nat.mod_eq_of_lt hv
  · unfold setPrevSize; exact writeLE_other (by omega)
  · have hb := setState_byte m (a + 15) st
    have h1 : infoType m (a + 15) < 4 := Nat.mod_lt _ (by omega)
    refine ⟨?_, ?_, ?_, fun x hx => setState_other hx⟩
    · unfold infoState; rw [hb]; omega
    · conv => lhs; unfold infoType
      rw [hb]; omega
    · conv => lhs; unfold infoMagic
      rw [hb]; omega

/-- C17, the fields written by `setState` are independent of those of `setSize` and `setPrevSize`: a header keeps
its other fields. -/
theorem C17_fields_independent (m : Mem) (a v st : Nat) :
    hPrev (setSize m a v) a = hPrev m a ∧ (setSize m a v) (a + 15) = m (a + 15) ∧
    hSize (setPrevSize m a v) a = hSize m a ∧ (setPrevSize m a v) (a + 15) = m (a + 15) ∧
    hSize (setState m (a + 15) st) a = hSize m a ∧ hPrev (setState m (a + 15) st) a = hPrev m a := by
  refine ⟨readLE_writeLE_other (by omega), writeLE_other (by omega), readLE_writeLE_other (by omega),
    writeLE_other (by omega), readLE_congr ?_, readLE_congr ?_⟩ <;>
  · intro x h1 h2
    exact setState_other (by omega)

/-! ### C18 -/

/-- C18: `a` is the address of a used chunk and `b > 1` any boundary, power of two or not. After the alignment of its
body, the chunk found from the returned pointer is the chunk at `a`; the pointer is a multiple of `b`, and only
the 8 bytes before it changed. -/
theorem C18_pointer_leads_back {m : Mem} {a s p b : Nat} (H : HdrAt m a s p 1) (hb : 1 < b)
    (h64 : a + 24 + b < W64) (h56 : b < W56) :
    ∃ m' v, setupChunkPadded m (a + 15) b = (m', v) ∧ chunkBody v % b = 0 ∧ a + 16 ≤ chunkBody v ∧
      chunkBody v < a + 24 + b ∧ getChunkUnpadded m' (chunkBody v) = .ok (a + 15) ∧
      ∀ x, x + 8 < chunkBody v ∨ chunkBody v ≤ x → m' x = m x := by
  by_cases hne : (a + 16) % b = 0
  · have hbody : chunkBody (a + 15) = a + 16 := chunkBody_eq (by omega)
    refine ⟨m, a + 15, ?_, ?_⟩
    · unfold setupChunkPadded
      simp only [hbody]
      rw [if_neg (by omega)]
    · rw [hbody]
      exact ⟨hne, by omega, by omega, getChunkUnpadded_large H (by omega) (by omega), fun _ _ => rfl⟩
  · have hge := alignUp_ge (a + 24) b
    have hlt := alignUp_lt (a := a + 24) (b := b) (by omega)
    obtain ⟨m', e, P, f⟩ := setupChunkPadded_spec H hb hne (by omega) (by omega)
    have hbody : chunkBody (alignUp (a + 24) b - 1) = alignUp (a + 24) b := by
      unfold chunkBody
      rw [if_neg (by omega), add64_eq (by omega)]
      omega
    have hag : HdrAt m' a s p 1 := H.congr (fun x h1 h2 => f x (by omega)) (fun x h1 h2 => f x (by omega))
    refine ⟨m', _, e, ?_, ?_⟩
    · rw [hbody]; exact Nat.mod_eq_zero_of_dvd (alignUp_dvd (by omega))
    · rw [hbody]
      refine ⟨by omega, by omega, ?_, fun x hx => f x (by omega)⟩
      have e1 : alignUp (a + 24) b = a + 24 + (alignUp (a + 24) b - (a + 24)) := by omega
      rw [e1]
      refine getChunkUnpadded_padded hag (by omega) ?_ (by omega)
      have e2 : a + 16 + (alignUp (a + 24) b - (a + 24)) = alignUp (a + 24) b - 8 := by omega
      rw [e2]
      exact P

/-- A used chunk of 4096 bytes at 8192, with boundary 24. -/
example : ∃ m, HdrAt m 8192 4096 0 1 ∧ (1 : Nat) < 24 ∧ (8192 : Nat) + 24 + 24 < W64 := by
  refine ⟨_, setupLargeHeader_hdr (fun _ => 0) 8192 4096 0, by omega, by omega⟩

end MpcAlloc
