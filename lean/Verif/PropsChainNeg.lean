import Verif.DoubleFree
import Verif.PropsChain2

/-
Refutations: properties of PropsChain.lean and PropsChain2.lean that are false of the code as written, each with a
concrete reachable state as witness.
-/

namespace MpcAlloc

variable {σ : Type}

theorem calc_wrap : calcChunkSize 18446744073709551608 = calcChunkSize 8 := by
  simp [calcChunkSize, add64]

/-- The history behind the refutations of C01, C03, C04 and C05: on a fresh chain over a buffer of 4096 bytes, a
request of 2^64 - 8 bytes succeeds (the size computation wraps around); then 8 bytes are requested. -/
theorem wrap_history : ∃ (s s1 s2 : CS Unit) (p q a : Nat), Reach S0 Config.default 4096 s [] [(8192, 4096)] ∧
    allocAlign S0 s 0 18446744073709551608 = .ok (s1, p) ∧ allocAlign S0 s1 0 8 = .ok (s2, q) ∧
    8192 ≤ p ∧ 16 ∣ p ∧ p < a ∧ a + 16 = q ∧ a + 32 ≤ 12288 ∧
    (s1.w.mem (a + 15)).toNat = 129 ∧ (s2.w.mem (a + 15)).toNat = 133 := by
  obtain ⟨s0, s, A0, A, d, O⟩ := one_block (b := 0) (n := 8) sampleBuf_4096 (Or.inl (by omega)) (by omega)
    (by simp) (by omega)
  have hs := O.size (by simp)
  simp only [Nat.not_lt_zero, if_false] at hs
  obtain ⟨s', A', d', e', G, hne, R', H', g1⟩ := O.second (b' := 0) (n' := 8) (Or.inl (by omega)) (by omega)
    (by omega) (by simp; omega)
  have h1 := O.got.ptr
  have h2 := O.got.addr
  have h3 := G.ptr
  have h4 := G.addr
  rw [if_pos (Or.inl (by omega))] at h1 h3
  simp only at h2 h4
  have hF : A.Has ⟨8192 + 32 + d.size, 4096 - 48 - d.size, .free⟩ := (O.free rfl).2 ⟨by omega, rfl⟩
  obtain ⟨x, hx⟩ := O.inv.inv.mem.hdr hF
  obtain ⟨y, hy⟩ := H'.inv.mem.hdr G.usedD.1
  have hx' := hx.hdr.info
  have hy' := hy.hdr.info
  rw [G.noPad (by omega), h4] at hy'
  refine ⟨s0, s, s', d.uptr, d'.uptr, d'.addr, O.reach0, ?_, e', by omega, ?_, by omega, by omega, ?_, ?_, ?_⟩
  · rw [allocAlign_congr S0 s0 (by omega) (by omega) (by omega : 8 ≠ 0) O.inv0.src calc_wrap]
    exact O.call
  · exact O.got.align16 (by omega)
  · have hd := H'.wf.has_wf G.usedD.1
    obtain ⟨g, hg, hdg⟩ := G.usedD.1
    have hb := (H'.wf.seg g hg).bounds hdg
    have := H'.segOf hg
    simp only [List.mem_singleton, Prod.mk.injEq] at this
    have := hd.ge
    omega
  · rw [h4]; exact hx'
  · rw [h4]; exact hy'

/-- C01 is false when sizes near 2^64 are requested: the second block is inside the range of the first one. -/
theorem C01_refuted : ∃ (s s1 s2 : CS Unit) (p q : Nat), Reach S0 Config.default 4096 s [] [(8192, 4096)] ∧
    allocAlign S0 s 0 18446744073709551608 = .ok (s1, p) ∧ p ≠ 0 ∧ allocAlign S0 s1 0 8 = .ok (s2, q) ∧ q ≠ 0 ∧
    ¬ Block.Disj ⟨p, 18446744073709551608, true⟩ ⟨q, 8, true⟩ := by
  obtain ⟨s, s1, s2, p, q, a, R, e1, e2, h1, _, h2, h3, h4, _⟩ := wrap_history
  refine ⟨s, s1, s2, p, q, R, e1, by omega, e2, by omega, ?_⟩
  intro h
  refine h q ⟨?_, ?_⟩ <;> simp only [Block.Byte] <;> omega

/-- C02 is false when sizes near 2^64 are requested: the block does not lie in the buffer. -/
theorem C02_refuted : ∃ (s s1 : CS Unit) (p : Nat), Reach S0 Config.default 4096 s [] [(8192, 4096)] ∧
    allocAlign S0 s 0 18446744073709551608 = .ok (s1, p) ∧ p ≠ 0 ∧ ¬ p + 18446744073709551608 ≤ 8192 + 4096 := by
  obtain ⟨s, s1, s2, p, q, a, R, e1, e2, h1, _, h2, h3, h4, _⟩ := wrap_history
  exact ⟨s, s1, p, R, e1, by omega, by omega⟩

/-- C03 is false for sizes near 2^64: the first call returns a pointer, but a byte of the requested range is given
to the next caller. -/
theorem C03_refuted : ∃ (s s1 s2 : CS Unit) (p q : Nat), Reach S0 Config.default 4096 s [] [(8192, 4096)] ∧
    allocAlign S0 s 0 18446744073709551608 = .ok (s1, p) ∧ p ≠ 0 ∧ allocAlign S0 s1 0 8 = .ok (s2, q) ∧ q ≠ 0 ∧
    p ≤ q ∧ q < p + 18446744073709551608 := by
  obtain ⟨s, s1, s2, p, q, a, R, e1, e2, h1, _, h2, h3, h4, _⟩ := wrap_history
  exact ⟨s, s1, s2, p, q, R, e1, by omega, e2, by omega, by omega, by omega⟩

/-- C04 is false for sizes near 2^64: the second call changes a byte of the first, still live, block. -/
theorem C04_refuted : ∃ (s s1 s2 : CS Unit) (p q x : Nat), Reach S0 Config.default 4096 s [] [(8192, 4096)] ∧
    allocAlign S0 s 0 18446744073709551608 = .ok (s1, p) ∧ p ≠ 0 ∧ allocAlign S0 s1 0 8 = .ok (s2, q) ∧
    Block.Byte ⟨p, 18446744073709551608, true⟩ x ∧ s2.w.mem x ≠ s1.w.mem x := by
  obtain ⟨s, s1, s2, p, q, a, R, e1, e2, h1, _, h2, h3, h4, h5, h6⟩ := wrap_history
  refine ⟨s, s1, s2, p, q, a + 15, R, e1, by omega, e2, ?_, ?_⟩
  · simp only [Block.Byte]; omega
  · intro h
    rw [h] at h6
    omega

/-- An allocation aligned on 16 bytes is an allocation of 16 more bytes when the result is aligned anyway. -/
theorem allocAlign_16 (S : Source σ) {s s' : CS σ} {n m r : Nat} (hn : n ≠ 0) (hm : m ≠ 0) (hnm : add64 n 16 = m)
    (hs : s.c.hasSrc = false) (e : allocAlign S s 0 m = .ok (s', r)) (hr : 16 ∣ r) (hr0 : r ≠ 0) :
    allocAlign S s 16 n = .ok (s', r) := by
  unfold allocAlign at e ⊢
  rw [if_neg hn]
  rw [if_neg hm] at e
  simp only [Nat.not_lt_zero, gt_iff_lt, if_false] at e
  simp only [gt_iff_lt, Nat.one_lt_ofNat, if_true, hnm]
  by_cases hd : s.c.dead = true
  · rw [if_pos hd] at e; cases e
  rw [if_neg hd] at e ⊢
  have hh : isHuge s.c m = false := by simp [isHuge, hs]
  rw [hh] at e ⊢
  simp only [Bool.false_eq_true, if_false] at e ⊢
  obtain ⟨t, e1, e⟩ := Outcome.bind_eq_ok e
  obtain ⟨⟨t2, v⟩, e2, e⟩ := Outcome.bind_eq_ok e
  obtain ⟨t3, e3, e⟩ := Outcome.bind_eq_ok e
  simp only at e3 e
  rw [e1, Outcome.ok_bind, e2, Outcome.ok_bind]
  simp only
  rw [e3, Outcome.ok_bind]
  by_cases hv : v = 0
  · rw [if_pos hv] at e
    exact absurd (Prod.mk.inj (Outcome.ok.inj e)).2.symm hr0
  rw [if_neg hv] at e ⊢
  rw [← e]
  have he : padAndReturn t3 v 0 = (s', r) := Outcome.ok.inj e
  have hp : padAndReturn t3 v 0 = (t3, chunkBody v) := by
    unfold padAndReturn
    simp only [Nat.not_lt_zero, gt_iff_lt, if_false, if_neg hv]
    rfl
  rw [hp] at he
  have hcb : chunkBody v = r := (Prod.mk.inj he).2
  have hset : setupChunkPadded t3.w.mem v 16 = (t3.w.mem, v) := by
    unfold setupChunkPadded
    simp only
    rw [if_neg (by rw [hcb]; omega)]
  rw [hp]
  unfold padAndReturn
  simp only [gt_iff_lt, Nat.one_lt_ofNat, if_true, hset, if_neg hv]
  rfl

/-- C05 is false for sizes near 2^64: the pointer is aligned, but the requested size is not available behind it. -/
theorem C05_refuted : ∃ (s s1 : CS Unit) (p : Nat), Reach S0 Config.default 4096 s [] [(8192, 4096)] ∧
    allocAlign S0 s 16 18446744073709551592 = .ok (s1, p) ∧ p ≠ 0 ∧ ¬ p + 18446744073709551592 ≤ 8192 + 4096 := by
  obtain ⟨s, s1, s2, p, q, a, R, e1, e2, h1, hd, h2, h3, h4, _⟩ := wrap_history
  obtain ⟨A, H⟩ := reach_inv default_factor R
  refine ⟨s, s1, p, R, allocAlign_16 S0 (n := 18446744073709551592) (m := 18446744073709551608) (by omega) (by omega)
    (by simp [add64]) H.src e1 hd (by omega), by omega, by omega⟩

/-- C06 is false for sizes from 2^63: on a fresh chain over a buffer of 2 MB + 48 bytes, a request of 2^63 bytes
makes the program abort. -/
theorem C06_refuted : ∃ s : CS Unit, Reach S0 Config.default 4096 s [] [(8192, 2097200)] ∧
    allocAlign S0 s 0 9223372036854775808 = .abort := by
  obtain ⟨s, R, hnm, _⟩ := fresh_reach (X := 8192) (sz := 2097200)
    ⟨by omega, by omega, by omega, by omega, by omega, by omega⟩ false
  obtain ⟨A, H⟩ := reach_inv default_factor R
  refine ⟨s, R, ?_⟩
  have hF : A.Has ⟨8224, 2097152, .free⟩ := ⟨_, by rw [H.one_seg hnm]; exact List.mem_singleton.2 rfl, by simp⟩
  obtain ⟨i, hi⟩ := H.wf.flAll _ hF rfl
  have hcl := H.wf.flClass i _ hi
  have h42 : A.fl 42 ≠ [] := by
    have : i = 42 := hcl.unique (Or.inl ⟨by simp, by omega, Nat.le_refl _, by omega⟩)
    subst this
    exact List.ne_nil_of_mem hi
  have I := H.inv
  unfold allocAlign
  rw [if_neg (by simp [I.dead]), if_neg (by omega)]
  simp only [Nat.not_lt_zero, gt_iff_lt, if_false]
  have hh : isHuge s.c 9223372036854775808 = false := by simp [isHuge, H.src]
  rw [hh, if_neg (by simp), lockIf_ok I.dead I.lock, Outcome.ok_bind]
  rw [allocLocked_neg_abort S0 H.wf (n := 9223372036854775808) (by decide) h42
    (s := { s with c := { s.c with lock := s.c.threadSafe } }) I.pool I.mem]
  rfl

/-- C09 is false for chunks larger than 2 MB: a chain over a buffer of 4 MB never satisfies any request, although
its free chunk covers the whole buffer. -/
theorem C09_refuted : ∃ s : CS Unit, Reach S0 Config.default 4096 s [] [(8192, 4194304)] ∧
    BufChunks s.w.mem 8192 4194304 [(8224, 4194256, true)] ∧
    ∀ b n, GoodBound b → n + b + 16 < W63 → allocAlign S0 s b n = .ok (s, 0) := by
  obtain ⟨s, R, hnm, _⟩ := fresh_reach (X := 8192) (sz := 4194304)
    ⟨by omega, by omega, by omega, by omega, by omega, by omega⟩ false
  obtain ⟨A, H⟩ := reach_inv default_factor R
  refine ⟨s, R, C07_one_free_chunk default_factor R hnm (y := (8192, 4194304)) (by simp), ?_⟩
  intro b n hb hn
  have hsz : SizeOK [(8192, 4194304)] b n := Or.inl (by split <;> omega)
  obtain ⟨s', r, e, _⟩ := C06_valid_calls_succeed_partial default_factor R (op := .alloc b n) ⟨hb, hsz⟩ trivial
  have e' : allocAlign S0 s b n = .ok (s', r) := e
  obtain ⟨A', hA, _, hz, _⟩ := H.alloc S0 hb hsz e'
  rcases hA with ⟨rfl, _⟩ | ⟨c, d, G, _⟩
  · rw [e', hz rfl]
  · exfalso
    obtain ⟨g, hg, hcg⟩ := G.has
    rw [H.one_seg hnm, List.mem_singleton] at hg
    subst hg
    simp only [List.mem_singleton] at hcg
    have := G.small
    rw [hcg] at this
    simp at this

/-- C14 is false for blocks obtained with a boundary: 32 bytes aligned on 4096 are enlarged to 4000 bytes in place,
although only 48 bytes follow the pointer in its chunk; the new block even leaves the buffer. -/
theorem C14_refuted : ∃ (s : CS Unit) (l : Block), Reach S0 Config.default 4096 s [l] [(12256, 4192)] ∧ l.len = 32 ∧
    l.ptr ≠ 0 ∧ chainRealloc S0 Config.default 0 s l.ptr 4000 = .ok (s, l.ptr) ∧ 12256 + 4192 < l.ptr + 4000 := by
  obtain ⟨s0, s, A0, A, d, O⟩ := one_block (X := 12256) (sz := 4192) (b := 4096) (n := 32)
    ⟨by omega, by omega, by omega, by omega, by omega, by omega⟩ (Or.inr ⟨12, rfl⟩) (by omega) (by simp) (by omega)
  have hs := O.size (by simp)
  have hle := O.got.le
  have hp := O.got.ptr
  have ha := O.got.addr
  simp at hs hle ha
  have hsz : d.size = 4144 := by omega
  rw [ha] at hp
  have hp' : d.uptr = 16384 := by rw [hp]; decide
  obtain ⟨v, h1, h2, h3⟩ := getChunk_used O.inv.wf O.inv.inv.mem O.used
  have h1' : getChunk s.w.mem d.uptr = .ok v := h1
  have h3' : getUnpaddedSize s.w.mem v = .ok 4144 := by rw [← hsz]; exact h3
  refine ⟨s, _, O.reach, rfl, by simp only; omega, ?_, by simp only; omega⟩
  unfold chainRealloc
  simp only
  rw [if_neg (by omega), if_neg (by omega), if_neg (by omega), h1', Outcome.ok_bind, if_pos h2, h3', Outcome.ok_bind]
  rw [if_neg (by simp [Config.default]), if_pos (by simp [Config.default, sub64])]
  rfl

/-- C13 is false: a block of 32 bytes obtained with the boundary 4096 is made larger. The new chunk lies right behind
the old one and the code copies the size of the whole old chunk, counted from the aligned address: the areas given to
memcpy overlap. -/
theorem C13_refuted : ∃ (s : CS Unit) (l : Block), Reach S0 Config.default 4096 s [l] [(12256, 16384)] ∧ l.len = 32 ∧
    chainRealloc S0 Config.default 0 s l.ptr 5000 = .ub := by
  obtain ⟨s0, s, A0, A, d, O⟩ := one_block (X := 12256) (sz := 16384) (b := 4096) (n := 32)
    ⟨by omega, by omega, by omega, by omega, by omega, by omega⟩ (Or.inr ⟨12, rfl⟩) (by omega) (by simp) (by omega)
  have hs := O.size (by simp)
  have hle := O.got.le
  have hp := O.got.ptr
  have ha := O.got.addr
  simp at hs hle ha
  rw [ha] at hp
  have hp' : d.uptr = 16384 := by rw [hp]; decide
  obtain ⟨s', A', d', e', G, hne, R', H', g1⟩ := O.second (b' := 0) (n' := 5000) (Or.inl (by omega)) (by omega)
    (by omega) (by simp; omega)
  have ha' := G.addr
  have hq := G.ptr
  rw [if_pos (Or.inl (by omega))] at hq
  simp only at ha'
  obtain ⟨v, h1, h2, h3⟩ := getChunk_used O.inv.wf O.inv.inv.mem O.used
  have h1' : getChunk s.w.mem d.uptr = .ok v := h1
  have h3' : getUnpaddedSize s.w.mem v = .ok d.size := h3
  refine ⟨s, _, O.reach, rfl, ?_⟩
  unfold chainRealloc
  simp only
  rw [if_neg (by omega), if_neg (by omega), if_neg (by omega), h1', Outcome.ok_bind, if_pos h2, h3', Outcome.ok_bind]
  rw [sub64_eq (by omega) (by omega), if_neg (by simp [Config.default]), if_neg (by omega),
    show chainAlloc S0 0 s 5000 = .ok (s', d'.uptr) from e', Outcome.ok_bind]
  simp only
  rw [if_pos hne, if_pos (by omega)]
  unfold memCopy
  rw [if_neg (by omega)]
  rfl

/-- C15 is false: a realloc that fails for lack of memory frees the old block; the next allocation gets its
memory. -/
theorem C15_refuted : ∃ (s s1 s2 : CS Unit) (l : Block), Reach S0 Config.default 4096 s [l] [(8192, 4096)] ∧
    l.len = 100 ∧ ValidOp 4096 [l] [(8192, 4096)] (.realloc l.ptr 0 5000) ∧
    chainRealloc S0 Config.default 0 s l.ptr 5000 = .ok (s1, 0) ∧
    allocAlign S0 s1 0 100 = .ok (s2, l.ptr) ∧ l.ptr ≠ 0 := by
  obtain ⟨s0, s, A0, A, d, O⟩ := one_block (b := 0) (n := 100) sampleBuf_4096 (Or.inl (by omega)) (by omega)
    (by simp) (by omega)
  have hp := O.got.ptr
  have ha := O.got.addr
  rw [if_pos (Or.inl (by omega))] at hp
  simp only at ha
  have hov : ValidOp 4096 [⟨d.uptr, 100, decide (0 ≤ 1)⟩] [(8192, 4096)] (.realloc d.uptr 0 5000) :=
    ⟨Or.inl (by omega), Or.inl (by simp), Or.inr ⟨_, List.mem_cons_self, rfl, Or.inr (Or.inl rfl)⟩⟩
  have hst := O.got.noPad (by omega)
  have hge := (O.inv.wf.has_wf O.used.1).ge
  obtain ⟨r, A', hR, _, _, hsh, hs⟩ := realloc_ok S0 Config.default (hook := 0) (n := 5000) O.inv.wf O.used
    (Or.inl (by omega)) (by omega) (Or.inl (by simp [alignedSize])) default_factor
    (reallocSafe_unpadded _ hst (by omega)) s.c.noMerge
  obtain ⟨h', e, _⟩ := hs s O.inv.inv O.inv.src rfl
  have hle := O.got.le
  simp only at hle
  have hr : r = 0 := by
    cases hR with
    | keep hk => have := hk.1; omega
    | fail _ _ _ => rfl
    | move _ G _ _ =>
      have h1 := G.min
      have h2 := G.le
      have h3 := ((O.free G.free).1 G.has).2
      rw [h3] at h2
      simp [alignedSize, calcChunkSize, add64] at h1 h2
      omega
  subst hr
  have R1 := O.reach.step hov trivial (show exec S0 Config.default s (.realloc d.uptr 0 5000) = _ from e)
  have hacc : account [⟨d.uptr, 100, decide (0 ≤ 1)⟩] (.realloc d.uptr 0 5000) 0 = [] := by
    simp [account]; omega
  rw [hacc] at R1
  obtain ⟨A1, H1⟩ := reach_inv default_factor R1
  have hm1 : (s.setHeap h').c.noMerge = false := O.merge
  have hF : A1.Has ⟨8224, 4048, .free⟩ := ⟨_, by rw [H1.one_seg hm1]; exact List.mem_singleton.2 rfl, by simp⟩
  obtain ⟨s2, A2, c, d2, e2, G, hne, _⟩ := alloc_some (b := 0) (n := 100) default_factor R1 H1 (Or.inl (by omega))
    (by omega) hF rfl (by simp) (by simp)
  have hc : c.addr = 8224 := by
    obtain ⟨g, hg, hcg⟩ := G.has
    rw [H1.one_seg hm1, List.mem_singleton] at hg
    subst hg
    simp only [List.mem_singleton] at hcg
    rw [hcg]
  have h1 := G.ptr
  have h2 := G.addr
  rw [if_pos (Or.inl (by omega))] at h1
  refine ⟨s, _, s2, _, O.reach, rfl, hov, e, ?_, by simp only; omega⟩
  rw [e2]
  simp only
  congr 2
  omega

/-! ### C12 -/

/-- C12 is false of the code whenever the chunks on both sides of the block are free: the second call goes through, cuts
the merged chunk at the end of the block and marks the chunk behind it as in use. -/
theorem C12_double_free_missed {S : Source σ} {C : Config} {pb : Nat} {s : CS σ} {L : List Block}
    {B : List (Nat × Nat)} (hf : C.reallocFactor ≠ 0) (h : Reach S C pb s L B) {l : Block} (hl : l ∈ L)
    (hpl : l.plain = true) (hm : s.c.noMerge = false) {y : Nat × Nat} (hy : y ∈ B) {l1 l2 : List (Nat × Nat × Bool)}
    {fa fs ca cs ra rs : Nat} (hca : ca + 16 = l.ptr)
    (hch : BufChunks s.w.mem y.1 y.2 (l1 ++ (fa, fs, true) :: (ca, cs, false) :: (ra, rs, true) :: l2)) :
    ∃ s1 s2, chainFree S C s l.ptr = .ok s1 ∧ chainFree S C s1 l.ptr = .ok s2 ∧
      BufChunks s1.w.mem y.1 y.2 (l1 ++ (fa, fs + cs + rs, true) :: l2) ∧
      BufChunks s2.w.mem y.1 y.2 (l1 ++ (fa, fs + cs, true) :: (ra, rs, false) :: l2) := by
  obtain ⟨A, H⟩ := reach_inv hf h
  obtain ⟨c, hc, hp, _, hn⟩ := H.live.used l hl
  have hst := hn hpl
  have hup : c.uptr = c.addr + 16 := by unfold Ck.uptr Ck.off; rw [hst]
  obtain ⟨g, hg, hg1, hg2, hgc⟩ := H.seg hy
  have hview := hgc.unique hch
  obtain ⟨S1, S2, hS⟩ := List.append_of_mem hg
  obtain ⟨p', q0, hpq, hp1, hq1⟩ := List.map_eq_append_iff.1 hview
  obtain ⟨f, q1, rfl, hf1, hq2⟩ := List.map_eq_cons_iff.1 hq1
  obtain ⟨c', q2, rfl, hc1, hq3⟩ := List.map_eq_cons_iff.1 hq2
  obtain ⟨r, q', rfl, hr1, hq4⟩ := List.map_eq_cons_iff.1 hq3
  simp only [Ck.view, Prod.mk.injEq, decide_eq_true_eq, decide_eq_false_iff_not] at hf1 hc1 hr1
  obtain ⟨rfl, rfl, hff⟩ := hf1
  obtain ⟨rfl, rfl, hcf⟩ := hc1
  obtain ⟨rfl, rfl, hrf⟩ := hr1
  have hc'H : A.Has c' := ⟨g, hg, by rw [hpq]; simp⟩
  have hcc : c' = c := H.wf.addr_inj hc'H hc.1 (by omega)
  subst hcc
  obtain ⟨F1, F2⟩ := noAdj_fences (by have := H.noAdj hm g hg; rw [hpq] at this; exact this) hff hrf
  have hA : A = (({ S1 := S1, S2 := S2, base := g.base, size := g.size, p := p' ++ [f], q := [r] ++ q' } : Ctx)).fill [c'] A.fl := by
    obtain ⟨segs, fl⟩ := A
    obtain ⟨gb, gs, gc⟩ := g
    simp only at hS hpq
    subst hpq hS
    simp [Ctx.fill, Ctx.seg]
  have hw := H.wf
  have hi := H.inv.mem
  generalize hfl : A.fl = fl at hA
  rw [hA] at hw hi
  have hwg := H.wf.seg g hg
  have ht := hwg.tiles
  rw [hpq] at ht
  obtain ⟨h1, h2, fl1, e1, M1, hcm, e2, hz1, hz2, hz3⟩ := release_twice
    (K := { S1 := S1, S2 := S2, base := g.base, size := g.size, p := p' ++ [f], q := [r] ++ q' }) hw hst hff hrf F1 F2 hi
  have hr := H.wf.has_range hc.1
  obtain ⟨k1, k2, k3⟩ := getChunkUnpadded_used H.wf H.inv.mem hc
  have c1 : chainFree S C s c'.uptr = .ok (s.setHeap h1) := by
    refine chainFree_release H.inv.dead H.inv.lock H.inv.pool H.src hm (by omega) (by omega) k1 k2 ?_ e1
    split
    · rename_i h; exact base_getChunk H.wf H.inv h
    · exact ⟨0, rfl⟩
  obtain ⟨A1, R1, H1, _, _⟩ := H.free S C hc c1
  have c2 : chainFree S C (s.setHeap h1) c'.uptr = .ok ((s.setHeap h1).setHeap h2) := by
    have hh := hcm.hdr
    have j1 : getChunkUnpadded h1.mem (c'.addr + 16) = .ok (c'.addr + 15) :=
      getChunkUnpadded_large hh (CkSt.num_lt _) (by omega)
    have j2 : infoState h1.mem (c'.addr + 15) = SALLOC := by
      rw [infoState_hdr hcm, hst]; rfl
    refine chainFree_release H1.inv.dead H1.inv.lock H1.inv.pool H1.src hm (by omega) (by omega)
      (by rw [hup]; exact j1) j2 ?_ (by rw [CS.heap_setHeap]; exact e2)
    split
    · rename_i h; exact base_getChunk H1.wf H1.inv h
    · exact ⟨0, rfl⟩
  refine ⟨_, _, by rw [← hp]; exact c1, by rw [← hp]; exact c2, ?_, ?_⟩
  all_goals
    obtain ⟨a, ht1, ht2⟩ := tiles_append.1 ht
    obtain ⟨ta, tb⟩ := ht2
    obtain ⟨tc, td⟩ := tb
    obtain ⟨te, tf⟩ := td
    have hcw := hwg.chunks f (by rw [hpq]; simp)
    have hcge := hcw.ge
    have hcw' := (hwg.chunks c' (by rw [hpq]; simp)).ge
    have hcwr := (hwg.chunks r (by rw [hpq]; simp)).ge
  · have htl : Tiles (y.1 + 32) (p' ++ ⟨f.addr, f.size + c'.size + r.size, .free⟩ :: q') (y.1 + y.2 - 16) := by
      rw [← hg1, ← hg2]
      refine tiles_append.2 ⟨a, ht1, ta, ?_⟩
      simp only
      rw [show a + (f.size + c'.size + r.size) = a + f.size + c'.size + r.size by omega]
      exact tf
    have := chunks_hdr (m := h1.mem) htl ?_
    · simpa [Ck.view, BufChunks, hp1, hq4] using this
    · intro d hd
      have hsz : r.addr + r.size - f.addr = f.size + c'.size + r.size := by omega
      rw [hsz] at M1
      have hdH : (({ S1 := S1, S2 := S2, base := g.base, size := g.size, p := p', q := q' } : Ctx).fill
          [⟨f.addr, f.size + c'.size + r.size, .free⟩] fl1).Has d := by
        rw [Ctx.has]
        simp only [List.mem_append, List.mem_cons] at hd
        rcases hd with h | h | h
        · exact Or.inr (Or.inl h)
        · exact Or.inl (by simp [h])
        · exact Or.inr (Or.inr (Or.inl h))
      obtain ⟨z, hz⟩ := M1.hdr hdH
      have hw : 0 < d.size ∧ d.st ≠ .stop := by
        simp only [List.mem_append, List.mem_cons] at hd
        rcases hd with h | h | h
        · have := hwg.chunks d (by rw [hpq]; simp [h]); have h3 := this.ge; exact ⟨by omega, this.nstop⟩
        · rw [h]; exact ⟨by simp only; omega, by simp⟩
        · have := hwg.chunks d (by rw [hpq]; simp [h]); have h3 := this.ge; exact ⟨by omega, this.nstop⟩
      have hh := hz.hdr
      rw [Ck.hdrSize_eq hw.2] at hh
      exact ⟨hw.1, hw.2, z, hh⟩
  · have htl : Tiles (y.1 + 32) (p' ++ ⟨f.addr, f.size + c'.size, .free⟩ :: r.use :: q') (y.1 + y.2 - 16) := by
      rw [← hg1, ← hg2]
      refine tiles_append.2 ⟨a, ht1, ta, ?_⟩
      simp only
      rw [show a + (f.size + c'.size) = a + f.size + c'.size by omega]
      exact ⟨te, tf⟩
    have := chunks_hdr (m := h2.mem) htl ?_
    · simpa [Ck.view, BufChunks, hp1, hq4, Ck.use] using this
    · intro d hd
      simp only [List.mem_append, List.mem_cons] at hd
      have hrest : d ∈ p' ∨ d ∈ q' → 0 < d.size ∧ d.st ≠ .stop ∧ ∃ z, HdrAt h2.mem d.addr d.size z d.st.num := by
        intro h
        have hd := hwg.chunks d (by rw [hpq]; rcases h with h | h <;> simp [h])
        have h3 := hd.ge
        exact ⟨by omega, hd.nstop, hz3 d h⟩
      rcases hd with h | h | h | h
      · exact hrest (Or.inl h)
      · rw [h]
        refine ⟨by simp only; omega, by simp, ?_⟩
        have hsz : r.addr - f.addr = f.size + c'.size := by omega
        rw [hsz] at hz1
        exact hz1
      · rw [h]
        exact ⟨by simp only [Ck.use]; omega, by simp [Ck.use], _, hz2⟩
      · exact hrest (Or.inr h)

/-- C12 is false of the code: a block of 200 bytes, between two free chunks, is freed twice in a row. The second call
does not abort, and it damages the heap: no block is live, but the walk finds a chunk in use. -/
theorem C12_refuted : ∃ (s s1 s2 : CS Unit) (l : Block) (a n a' n' : Nat),
    Reach S0 Config.default 4096 s [l] [(8192, 4096)] ∧ l.plain = true ∧ l.len = 200 ∧
    chainFree S0 Config.default s l.ptr = .ok s1 ∧ chainFree S0 Config.default s1 l.ptr = .ok s2 ∧
    BufChunks s1.w.mem 8192 4096 [(8224, 4048, true)] ∧
    BufChunks s2.w.mem 8192 4096 [(a, n, true), (a', n', false)] := by
  obtain ⟨s, q, k, cs, rs, R, hm, hq, hch⟩ := block_between_free
  obtain ⟨s1, s2, e1, e2, b1, b2⟩ := C12_double_free_missed default_factor R (l := ⟨q, 200, true⟩) (by simp) rfl hm
    (y := (8192, 4096)) (by simp) (l1 := []) (l2 := []) (ca := 8224 + k) (by simp only; omega) hch
  refine ⟨s, s1, s2, ⟨q, 200, true⟩, 8224, k + cs, 8224 + k + cs, rs, R, rfl, rfl, e1, e2, ?_, b2⟩
  have hlen : k + cs + rs = 4048 := by
    have := Chunks.sum hch
    simp only [List.map_cons, List.map_nil, List.sum_cons, List.sum_nil] at this
    omega
  rw [← hlen]
  exact b1

end MpcAlloc
