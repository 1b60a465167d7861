import Verif.OddBuffer
import Verif.Samples

/-
C63: a chain uses only the buffer that it was given. The first call on a chain over one buffer of any address and
size (more than 80 bytes, as `sctk_alloc_chain_user_refill` requires, and at most 2 MB + 48).
-/

namespace MpcAlloc

variable {σ : Type}

/-- `n` bytes fit in a buffer of `sz` bytes: after the header of the buffer (32 bytes) and before its end mark (16)
there is room for a chunk that is a multiple of 16, with a header of 16 bytes and the `n` bytes. -/
def BufFits (sz n : Nat) : Prop := ∃ q, q % 16 = 0 ∧ 32 ≤ q ∧ n + 16 ≤ q ∧ 32 + q + 16 ≤ sz

/-- **C63** (part: the first call): whatever the address and the size of the buffer, a request that fits after the
rounding to 16 gets a block inside of the buffer, and nothing is written outside of the buffer and the structure of
the chain. Missing: later calls, which are covered by C02 for buffers that are aligned to 16. -/
theorem C63_inside_partial (S : Source σ) (w : World σ) (addr : Nat) {pb b sz n : Nat} (hpb : 0 < pb)
    (hf : pb + 1536 ≤ b) (h1 : 80 < sz) (h2 : sz ≤ MB2 + 48) (h3 : b + sz + 64 < 281474976710656) (hn : n ≠ 0)
    (hfit : BufFits sz n) :
    ∃ s s' p, standaloneInit w addr pb b sz = .ok s ∧ allocAlign S s 0 n = .ok (s', p) ∧
      b ≤ p ∧ p + n ≤ b + sz ∧ ∀ x, Outside pb b sz x → x < 281474976710656 → s'.w.mem x = w.mem x := by
  obtain ⟨q, q1, q2, q3, q4⟩ := hfit
  obtain ⟨s, j, e1, hl, I⟩ := started w addr hpb hf h1 (by omega)
  have hc := calc_eq (n := n) (by omega)
  have hcut := alignSize16_eq (n := calcChunkSize n) (by omega)
  obtain ⟨z, hz⟩ : ∃ z, z = alignSize16 (calcChunkSize n) := ⟨_, rfl⟩
  have hzq : z ≤ q := by omega
  have key : ∃ h', allocLocked S { s with c := { s.c with lock := s.c.threadSafe } } n =
      .ok (({ s with c := { s.c with lock := s.c.threadSafe } } : CS σ).setHeap h', b + 47) ∧
      ∀ x, ¬ PoolAt pb x → x < b ∨ (b + sz ≤ x ∧ x < 281474976710656) → h'.mem x = s.w.mem x := by
    by_cases hr : z + 32 ≤ sz - 48
    · obtain ⟨h', a1, a2, a3⟩ := locked_found S (I.setLock s.c.threadSafe) (n := n) (z := z) (r := sz - 48 - z) hpb hf h1 h2 h3
        (by omega) (by omega) (by omega) (by omega) (by omega) (fun m H => by
          obtain ⟨m', c1, c2, c3, c4⟩ := split_fit H hz.symm (by omega) (by omega) hr (by omega)
          exact ⟨m', c1, c2, c3, fun x hx => c4 x (by unfold PoolAt at hx; omega)⟩)
      exact ⟨h', a1, fun x g1 g2 => a3 x g1 (by omega)⟩
    · obtain ⟨h', a1, a2, a3⟩ := locked_whole S (I.setLock s.c.threadSafe) (n := n) hpb hf h1 h2 h3
        (by omega) (by omega) (by omega)
      exact ⟨h', a1, fun x g1 g2 => a3 x g1 (by omega)⟩
  obtain ⟨h', a1, a2⟩ := key
  have e2 := align_of_locked S (B := 0) I.dead hl I.src hn a1
  rw [if_neg (by omega)] at e2
  refine ⟨s, s.setHeap h', b + 48, e1, ?_, by omega, by omega, ?_⟩
  · rw [e2]
    unfold padAndReturn
    rw [if_neg (by omega)]
    simp only
    rw [if_neg (by omega), chunkBody_eq (h := b + 32) (by omega)]
    rfl
  · intro x hx hx2
    rw [← I.out x hx]
    exact a2 x hx.1 (by have := hx.2; omega)

/-- A request that is too large even without the rounding gets NULL and changes nothing. -/
theorem C63_null (S : Source σ) (w : World σ) (addr : Nat) {pb b sz n : Nat} (hpb : 0 < pb)
    (hf : pb + 1536 ≤ b) (h1 : 80 < sz) (h2 : sz ≤ MB2 + 48) (h3 : b + sz + 64 < 281474976710656)
    (hn : n < 4611686018427387904) (hfit : sz < 32 + (n + 16) + 16) :
    ∃ s, standaloneInit w addr pb b sz = .ok s ∧ allocAlign S s 0 n = .ok (s, 0) := by
  obtain ⟨s, j, e1, hl, I⟩ := started w addr hpb hf h1 (by omega)
  have hc := calc_eq (n := n) (by omega)
  have a1 := locked_none S (I.setLock s.c.threadSafe) (n := n) hf h1 h2 (by omega) (by omega)
  have e2 := align_of_locked S (B := 0) (n := n) (h' := s.heap) (v := 0) I.dead hl I.src (by omega) a1
  exact ⟨s, e1, e2⟩

/-- **The claim is false of the code for buffers whose size is no multiple of 16**: a request that fits only without
the rounding to 16 (line 812; the test of 820 is compiled out) makes the size of the residue wrap around. The header
of a "free chunk" of `2^56 - k` bytes is written at the end of the buffer and `k` bytes beyond it: the byte at
`b + sz + k - 1` becomes 129. -/
theorem C63_refuted_size (S : Source σ) (w : World σ) (addr : Nat) {pb b sz n : Nat} (hpb : 0 < pb)
    (hf : pb + 1536 ≤ b) (h1 : 80 < sz) (h2 : sz ≤ MB2 + 48) (h3 : b + sz + 64 < 281474976710656)
    (hin : 32 + (n + 16) + 16 ≤ sz) (hout : ¬ BufFits sz n) :
    ∃ s s' k, standaloneInit w addr pb b sz = .ok s ∧ allocAlign S s 0 n = .ok (s', b + 48) ∧ 0 < k ∧ k < 16 ∧
      (s'.w.mem (b + sz + k - 1)).toNat = 129 ∧ hSize s'.w.mem (b + sz + k - 16) = W56 - k := by
  obtain ⟨s, j, e1, hl, I⟩ := started w addr hpb hf h1 (by omega)
  have hc := calc_eq (n := n) (by omega)
  have hcut := alignSize16_eq (n := calcChunkSize n) (by omega)
  obtain ⟨z, hz⟩ : ∃ z, z = alignSize16 (calcChunkSize n) := ⟨_, rfl⟩
  have hzo : sz - 48 < z := by
    by_contra hle
    exact hout ⟨z, by omega, by omega, by omega, by omega⟩
  obtain ⟨k, hk⟩ : ∃ k, z = sz - 48 + k := ⟨z - (sz - 48), by omega⟩
  obtain ⟨h', a1, a2, a3⟩ := locked_found S (I.setLock s.c.threadSafe) (n := n) (z := z) (r := W56 - k) hpb hf h1 h2 h3
    (by omega) (by omega) (by omega) (by omega) (by omega) (fun m H => by
      obtain ⟨m', c1, c2, c3, c4⟩ := split_odd H hz.symm hk (by omega) (by omega) (by omega) (by omega) (by omega)
      exact ⟨m', c1, c2, c3, fun x hx => c4 x (by unfold PoolAt at hx; omega)⟩)
  have e2 := align_of_locked S (B := 0) (n := n) I.dead hl I.src (by
    rintro rfl
    exact hout ⟨32, by omega, by omega, by omega, by omega⟩) a1
  rw [if_neg (by omega)] at e2
  refine ⟨s, s.setHeap h', k, e1, ?_, by omega, by omega, ?_, ?_⟩
  · rw [e2]
    unfold padAndReturn
    rw [if_neg (by omega)]
    simp only
    rw [if_neg (by omega), chunkBody_eq (h := b + 32) (by omega)]
    rfl
  · have := a2.res.info
    have e : b + 32 + z + 15 = b + sz + k - 1 := by omega
    rw [e] at this
    exact this
  · have := a2.res.size
    have e : b + 32 + z = b + sz + k - 16 := by omega
    rw [e] at this
    exact this

/-- The header of the chunk of the first call, in both cases of the cut. -/
theorem first_chunk (S : Source σ) {w : World σ} {s : CS σ} {pb b sz j n : Nat} (I : Started pb b sz w s j)
    (hpb : 0 < pb) (hf : pb + 1536 ≤ b) (h1 : 80 < sz) (h2 : sz ≤ MB2 + 48) (h3 : b + sz + 64 < 281474976710656)
    (hfit : BufFits sz n) :
    ∃ h' z, allocLocked S s n = .ok (s.setHeap h', b + 47) ∧ HdrAt h'.mem (b + 32) z 0 1 ∧
      n + 16 ≤ z ∧ 32 + z + 16 ≤ sz ∧ (z ≠ sz - 48 → HdrAt h'.mem (b + 32 + z) (sz - 48 - z) z 0) ∧
      (n % 16 = 0 → 32 ≤ n + 16 → n + 16 + 32 ≤ sz - 48 → z = n + 16) ∧
      ∀ x, ¬ PoolAt pb x → x < b ∨ (b + sz ≤ x ∧ x < 281474976710656) → h'.mem x = s.w.mem x := by
  obtain ⟨q, q1, q2, q3, q4⟩ := hfit
  have hc := calc_eq (n := n) (by omega)
  have hcut := alignSize16_eq (n := calcChunkSize n) (by omega)
  obtain ⟨z, hz⟩ : ∃ z, z = alignSize16 (calcChunkSize n) := ⟨_, rfl⟩
  have hzq : z ≤ q := by omega
  by_cases hr : z + 32 ≤ sz - 48
  · obtain ⟨h', a1, a2, a3⟩ := locked_found S I (n := n) (z := z) (r := sz - 48 - z) hpb hf h1 h2 h3
      (by omega) (by omega) (by omega) (by omega) (by omega) (fun m H => by
        obtain ⟨m', c1, c2, c3, c4⟩ := split_fit H hz.symm (by omega) (by omega) hr (by omega)
        exact ⟨m', c1, c2, c3, fun x hx => c4 x (by unfold PoolAt at hx; omega)⟩)
    exact ⟨h', z, a1, a2.hdr, by omega, by omega, fun _ => a2.res, by omega, fun x g1 g2 => a3 x g1 (by omega)⟩
  · obtain ⟨h', a1, a2, a3⟩ := locked_whole S I (n := n) hpb hf h1 h2 h3 (by omega) (by omega) (by omega)
    exact ⟨h', sz - 48, a1, a2, by omega, by omega, fun h => absurd rfl h, by omega,
      fun x g1 g2 => a3 x g1 (by omega)⟩

/-- The block of an aligned request. -/
theorem padded_block (s : CS σ) {a z B : Nat} (H : HdrAt s.w.mem a z 0 1) (hB : 1 < B) (ha : a + 24 + B < 281474976710656) :
    ∃ s', padAndReturn s (a + 15) B = (s', if (a + 16) % B = 0 then a + 16 else alignUp (a + 24) B) ∧
      ∀ x, x < a + 16 ∨ a + 24 + B ≤ x → s'.w.mem x = s.w.mem x := by
  have hge := alignUp_ge (a + 24) B
  have hlt := alignUp_lt (a := a + 24) (b := B) (by omega)
  by_cases hz : (a + 16) % B = 0
  · refine ⟨s, ?_, fun _ _ => rfl⟩
    rw [if_pos hz]
    unfold padAndReturn setupChunkPadded
    rw [chunkBody_eq (by omega), if_pos hB, if_neg (fun h => h.2.2 hz)]
    simp only
    rw [if_neg (by omega), chunkBody_eq (by omega)]
    rfl
  · obtain ⟨m', e, P, f⟩ := setupChunkPadded_spec H hB hz (by omega) (by omega)
    refine ⟨s.setMem m', ?_, fun x hx => f x (by omega)⟩
    rw [if_neg hz]
    unfold padAndReturn
    rw [if_pos hB, e]
    simp only
    rw [if_neg (by omega)]
    unfold chunkBody
    rw [if_neg (by omega), add64_eq (by omega)]
    congr 1
    omega

/-- **C63, aligned requests** (part: the first call): if the address of the buffer is at most 8 above a multiple of
16 and the boundary is a multiple of 16, the block has the boundary and ends inside of its chunk. -/
theorem C63_aligned_partial (S : Source σ) (w : World σ) (addr : Nat) {pb b sz n B : Nat} (hpb : 0 < pb)
    (hf : pb + 1536 ≤ b) (h1 : 80 < sz) (h2 : sz ≤ MB2 + 48) (h3 : b + sz + 64 < 281474976710656) (hn : n ≠ 0)
    (hB : 0 < B) (hB16 : B % 16 = 0) (hb : b % 16 ≤ 8) (hfit : BufFits sz (n + B)) :
    ∃ s s' p z, standaloneInit w addr pb b sz = .ok s ∧ allocAlign S s B n = .ok (s', p) ∧ p % B = 0 ∧
      HdrAt s'.w.mem (b + 32) z 0 1 ∧ b + 48 ≤ p ∧ p + n ≤ b + 32 + z ∧ 32 + z + 16 ≤ sz ∧
      ∀ x, Outside pb b sz x → x < 281474976710656 → s'.w.mem x = w.mem x := by
  obtain ⟨q, q1, q2, q3, q4⟩ := id hfit
  obtain ⟨s, j, e1, hl, I⟩ := started w addr hpb hf h1 (by omega)
  obtain ⟨h', z, a1, a2, a3, a4, a5, a6, a7⟩ := first_chunk S (I.setLock s.c.threadSafe) hpb hf h1 h2 h3 hfit
  have hadd : (if B > 1 then add64 n B else n) = n + B := by
    rw [if_pos (by omega), add64_eq (by omega)]
  have e2 := align_of_locked S (B := B) (h' := h') (v := b + 47) I.dead hl I.src hn (by rw [hadd]; exact a1)
  rw [if_neg (by omega)] at e2
  obtain ⟨s', b1, b2⟩ := padded_block (s.setHeap h') (a := b + 32) (z := z) (B := B) a2 (by omega) (by omega)
  have hge := alignUp_ge (b + 32 + 24) B
  have hup : alignUp (b + 32 + 24) B + 8 ≤ b + 32 + 24 + B := by
    unfold alignUp
    obtain ⟨c, hc⟩ : ∃ c, B = 16 * c := ⟨B / 16, by omega⟩
    by_cases g : (b + 32 + 24) % B = 0
    · rw [if_pos g]; omega
    · rw [if_neg g]
      have hm : (b + 32 + 24) % B % 16 = (b + 32 + 24) % 16 := by
        rw [hc]; exact Nat.mod_mul_right_mod _ _ _
      have := Nat.mod_lt (b + 32 + 24) hB
      omega
  refine ⟨s, s', if (b + 32 + 16) % B = 0 then b + 32 + 16 else alignUp (b + 32 + 24) B, z, e1, ?_, ?_, ?_, ?_, ?_, a4, ?_⟩
  · rw [e2]
    exact congrArg Outcome.ok b1
  · by_cases g : (b + 32 + 16) % B = 0
    · rw [if_pos g]; exact g
    · rw [if_neg g]; exact Nat.mod_eq_zero_of_dvd (alignUp_dvd hB)
  · refine a2.congr ?_ ?_ <;> intro x g1 g2 <;> exact b2 x (by omega)
  · split <;> omega
  · split <;> omega
  · intro x hx hx2
    have := hx.2
    rw [← I.out x hx]
    refine (b2 x ?_).trans (a7 x hx.1 (by omega))
    omega

/-- **For other addresses the claim is false**: when the buffer starts 9 to 15 bytes above a multiple of 16, the block
of a request aligned to 16 reaches beyond its chunk, up to 7 bytes into the header (the size) of the free chunk
that follows. -/
theorem C63_refuted_base (S : Source σ) (w : World σ) (addr : Nat) {pb b sz n : Nat} (hpb : 0 < pb)
    (hf : pb + 1536 ≤ b) (h2 : sz ≤ MB2 + 48) (h3 : b + sz + 64 < 281474976710656) (hn : 0 < n)
    (hn16 : n % 16 = 0) (hb : 8 < b % 16) (hfit : n + 112 ≤ sz) :
    ∃ s s' p q, standaloneInit w addr pb b sz = .ok s ∧ allocAlign S s 16 n = .ok (s', p) ∧ p % 16 = 0 ∧
      HdrAt s'.w.mem q (sz - 80 - n) (n + 32) 0 ∧ p ≤ q ∧ q < p + n := by
  have hF : BufFits sz (n + 16) := ⟨n + 32, by omega, by omega, by omega, by omega⟩
  obtain ⟨B, hB⟩ : ∃ B, B = 16 := ⟨_, rfl⟩
  rw [← hB] at hF
  obtain ⟨s, j, e1, hl, I⟩ := started w addr (sz := sz) hpb hf (by omega) (by omega)
  obtain ⟨h', z, a1, a2, a3, a4, a5, a6, a7⟩ := first_chunk S (I.setLock s.c.threadSafe) hpb hf (by omega) h2 h3 hF
  have ez : z = n + 32 := by
    have := a6 (by omega) (by omega) (by omega)
    omega
  have hadd : (if B > 1 then add64 n B else n) = n + B := by
    rw [if_pos (by omega), add64_eq (by omega)]
  have e2 := align_of_locked S (B := B) (h' := h') (v := b + 47) I.dead hl I.src (by omega : n ≠ 0)
    (by rw [hadd]; exact a1)
  rw [if_neg (by omega)] at e2
  obtain ⟨s', b1, b2⟩ := padded_block (s.setHeap h') (a := b + 32) (z := z) (B := B) a2 (by omega) (by omega)
  have hp : (if (b + 32 + 16) % B = 0 then b + 32 + 16 else alignUp (b + 32 + 24) B) = b + 80 - b % 16 := by
    unfold alignUp
    rw [hB, if_neg (by omega), if_neg (by omega)]
    omega
  rw [hp] at b1
  rw [hB] at e2 b1
  refine ⟨s, s', b + 80 - b % 16, b + 32 + z, e1, ?_, ?_, ?_, ?_, ?_⟩
  · rw [e2]
    exact congrArg Outcome.ok b1
  · omega
  · have := a5 (by omega)
    have e : sz - 48 - z = sz - 80 - n := by omega
    rw [e, ez] at this
    rw [ez]
    refine this.congr ?_ ?_ <;> intro x g1 g2 <;> exact b2 x (by omega)
  · omega
  · omega

/-! ### Cases that meet the hypotheses -/

example : ¬ BufFits 100 36 := by
  rintro ⟨q, h1, h2, h3, h4⟩
  omega
example : BufFits 100 32 := ⟨48, by omega, by omega, by omega, by omega⟩

/-- A buffer of 100 bytes at 8192 and a request of 36 bytes: byte 8303, 12 bytes beyond the end, is written. -/
example (w : World Unit) : ∃ s s' k, standaloneInit w 4096 4200 8192 100 = .ok s ∧
    allocAlign S0 s 0 36 = .ok (s', 8240) ∧ 0 < k ∧ k < 16 ∧ (s'.w.mem (8192 + 100 + k - 1)).toNat = 129 ∧
      hSize s'.w.mem (8192 + 100 + k - 16) = W56 - k :=
  C63_refuted_size S0 w 4096 (pb := 4200) (b := 8192) (sz := 100) (n := 36) (by omega) (by omega) (by omega) (by omega)
    (by omega) (by omega) (by rintro ⟨q, h1, h2, h3, h4⟩; omega)

example (w : World Unit) : ∃ s s' p, standaloneInit w 4096 4200 8195 100 = .ok s ∧
    allocAlign S0 s 0 32 = .ok (s', p) ∧ 8195 ≤ p ∧ p + 32 ≤ 8195 + 100 ∧
      ∀ x, Outside 4200 8195 100 x → x < 281474976710656 → s'.w.mem x = w.mem x :=
  C63_inside_partial S0 w 4096 (by omega) (by omega) (by omega) (by omega) (by omega) (by omega)
    ⟨48, by omega, by omega, by omega, by omega⟩

/-- A buffer of 256 bytes aligned to 4 only. -/
example (w : World Unit) : ∃ s s' p q, standaloneInit w 4096 4200 8204 256 = .ok s ∧
    allocAlign S0 s 16 32 = .ok (s', p) ∧ p % 16 = 0 ∧ HdrAt s'.w.mem q 144 64 0 ∧ p ≤ q ∧ q < p + 32 :=
  C63_refuted_base S0 w 4096 (sz := 256) (n := 32) (by omega) (by omega) (by omega) (by omega) (by omega) (by omega)
    (by omega) (by omega)

example (w : World Unit) : ∃ s s' p z, standaloneInit w 4096 4200 8200 256 = .ok s ∧
    allocAlign S0 s 64 20 = .ok (s', p) ∧ p % 64 = 0 ∧ HdrAt s'.w.mem (8200 + 32) z 0 1 ∧ 8200 + 48 ≤ p ∧
      p + 20 ≤ 8200 + 32 + z ∧ 32 + z + 16 ≤ 256 ∧
      ∀ x, Outside 4200 8200 256 x → x < 281474976710656 → s'.w.mem x = w.mem x :=
  C63_aligned_partial S0 w 4096 (by omega) (by omega) (by omega) (by omega) (by omega) (by omega) (by omega)
    (by omega) (by omega) ⟨112, by omega, by omega, by omega, by omega⟩

end MpcAlloc
