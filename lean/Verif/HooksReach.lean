import Verif.HooksLemmas
import Verif.ConcurrentLemmas

/-
The events of the calls on a chain over user buffers.
-/

namespace MpcAlloc.Hooks

variable {σ : Type}

/-- Header of a chunk, used or free. -/
theorem chunk_read {pb : Nat} {A : AHeap} {h : Heap} {c : Ck} (W : A.WF pb) (M : MemOK (stdPool pb) h A) (hc : A.Has c) :
    getPtr h.mem (c.addr + 15) = .ok c.addr ∧ getSize h.mem (c.addr + 15) = c.size := by
  have hr := W.has_range hc
  have hw := W.has_wf hc
  obtain ⟨z, hm⟩ := M.hdr hc
  have hh := hm.hdr
  rw [Ck.hdrSize_eq hw.nstop] at hh
  exact ⟨getPtr_large hh (by omega), getSize_large hh (by omega)⟩

/-- The event of the split of `c`, of which `d` is kept. -/
def splitEv (H : Tab) (addr : Nat) (c d : Ck) : List Ev :=
  if d.size < c.size then emit H.split (.split addr c.addr d.size (c.size - d.size)) else []

theorem splitFreeBloc_res {m m' : Mem} {v n v' res : Nat} (h : splitFreeBloc m v n = .ok (m', v', res)) :
    res = 0 ∨ ∃ a, getPtr m v = .ok a ∧ 32 ≤ sub64 (getSize m v) (alignSize16 (calcChunkSize n)) ∧
      res = largeToV (add64 a (alignSize16 (calcChunkSize n))) := by
  unfold splitFreeBloc at h
  simp only at h
  split at h
  · rename_i h32
    obtain ⟨a, ha, h⟩ := Outcome.bind_eq_ok h
    rw [ha, Outcome.ok_bind] at h
    obtain ⟨a2, ha2, h⟩ := Outcome.bind_eq_ok h
    obtain ⟨a3, ha3, h⟩ := Outcome.bind_eq_ok h
    cases h
    exact Or.inr ⟨a, ha, h32, rfl⟩
  · cases h
    exact Or.inl rfl

theorem splitFreeBloc_zero {m m' : Mem} {v n v' : Nat} (h : splitFreeBloc m v n = .ok (m', v', 0)) :
    sub64 (getSize m v) (alignSize16 (calcChunkSize n)) < 32 ∨
      ∃ a, getPtr m v = .ok a ∧ largeToV (add64 a (alignSize16 (calcChunkSize n))) = 0 := by
  unfold splitFreeBloc at h
  simp only at h
  split at h
  · obtain ⟨a, ha, h⟩ := Outcome.bind_eq_ok h
    rw [ha, Outcome.ok_bind] at h
    obtain ⟨a2, ha2, h⟩ := Outcome.bind_eq_ok h
    obtain ⟨a3, ha3, h⟩ := Outcome.bind_eq_ok h
    simp only [Outcome.pure_eq, Outcome.ok.injEq, Prod.mk.injEq] at h
    exact Or.inr ⟨a, ha, h.2.2⟩
  · rename_i h32
    exact Or.inl (by omega)

/-- The locked part of an allocation that finds a chunk, with its events. -/
theorem allocLockedH_found {pb : Nat} {A : AHeap} {n k : Nat} {c : Ck} (H : Tab) (S : Source σ) (W : A.WF pb)
    (hsz : calcChunkSize n < W63) (hk : searchClass (calcChunkSize n) k)
    (hf : A.find k (calcChunkSize n) = some c) :
    A.Has c ∧ c.st = .free ∧ ∃ d A', TakeRel pb A c n d A' ∧
      ∀ s : CS σ, s.c.pool = stdPool pb → MemOK (stdPool pb) s.heap A →
        ∃ h', allocLockedH H S s n = .ok (s.setHeap h', d.addr + 15, splitEv H s.c.addr c d) ∧
          MemOK (stdPool pb) h' A' := by
  have key := findFreeChunk_ok W hsz hk
  rw [hf] at key
  simp only at key
  obtain ⟨k1, k2, k3, k4⟩ := key
  obtain ⟨d, A', R, hs⟩ := takeChunk_ok W k1 k2 k3
  refine ⟨k1, k2, d, A', R, ?_⟩
  intro s hp hM
  obtain ⟨s1, s', e1, e2, M2, f2⟩ := hs s.heap hM
  have hr := W.has_range k1
  have hcge := (W.has_wf k1).ge
  have hget : getPtr s1.mem (c.addr + 15) = .ok c.addr ∧ getSize s1.mem (c.addr + 15) = c.size := by
    obtain ⟨K, hA⟩ := Ctx.of_has k1
    obtain ⟨W1, rm⟩ := remove_ok (K := K) (fl := A.fl) (by rw [← hA]; exact W) k2
    obtain ⟨s2, e3, M1, _⟩ := rm s.heap (by rw [← hA]; exact hM)
    rw [e1] at e3
    cases e3
    exact chunk_read (c := c.use) W1 M1 (K.has_of_mem _ (by simp))
  obtain ⟨g1, g2⟩ := hget
  have hlv : largeToV c.addr = c.addr + 15 := largeToV_eq (by omega)
  have hcut : alignSize16 (calcChunkSize n) = cutSize n := by
    have := calc_ge n
    rw [alignSize16_eq (by omega), cutSize]
  have hcutle := cutSize_le (W.has_wf k1) k3
  refine ⟨s', ?_, M2⟩
  unfold allocLockedH searchH
  rw [hp, k4 _ hM, e1, Outcome.ok_bind, Outcome.pure_eq, Outcome.ok_bind]
  simp only
  rw [if_neg (by omega), Outcome.ok_bind]
  simp only
  rw [if_neg (by omega)]
  unfold takeH
  unfold takeChunk at e2
  by_cases h32 : hSize s1.mem c.addr < 32
  · rw [if_pos h32] at e2; exact absurd e2 (by simp)
  rw [if_neg h32] at e2
  rw [if_neg (show ¬ hSize (s.setHeap s1).w.mem c.addr < 32 from h32)]
  obtain ⟨⟨m, v, res⟩, e3, e4⟩ := Outcome.bind_eq_ok e2
  rw [CS.setHeap_mem, e3, Outcome.ok_bind]
  simp only at e4 ⊢
  by_cases hcs : getSize m v < calcChunkSize n
  · rw [if_pos hcs] at e4; exact absurd e4 (by simp)
  rw [if_neg hcs] at e4
  rw [if_neg hcs]
  rw [hlv] at e3
  by_cases hres : res ≠ 0
  · rw [if_pos hres] at e4 ⊢
    obtain ⟨h, e5, e6⟩ := Outcome.bind_eq_ok e4
    have hpool : (s.setHeap s1).c.pool = stdPool pb := hp
    have hheap : ((s.setHeap s1).setMem m).heap = { s1 with mem := m } := rfl
    rw [hpool, hheap, e5, Outcome.ok_bind]
    simp only [Outcome.pure_eq, Outcome.ok.injEq, Prod.mk.injEq] at e6
    obtain ⟨rfl, rfl⟩ := e6
    obtain ⟨a, ha, h32', rfl⟩ := (splitFreeBloc_res e3).resolve_left hres
    rw [g1] at ha
    cases ha
    rw [g2, hcut, sub64_eq (by omega) (by omega)] at h32'
    have hds : d.size = cutSize n := by
      have := R.tight
      rcases R.cut with h | h <;> omega
    have hlt : d.size < c.size := by omega
    have hfree := (R.rest ⟨c.addr + d.size, c.size - d.size, .free⟩ rfl).2 (Or.inr ⟨hlt, rfl⟩)
    have q1 := chunk_read R.wf M2 R.has
    have q2 := chunk_read R.wf M2 hfree
    simp only at q2
    have hrv : largeToV (add64 c.addr (alignSize16 (calcChunkSize n))) = c.addr + d.size + 15 := by
      rw [hcut, ← hds, add64_eq (by omega), largeToV_eq (by omega)]
    rw [hrv]
    unfold splitHook splitEv emit
    rw [if_pos hlt]
    have hmem : (((s.setHeap s1).setMem m).setHeap h).w.mem = h.mem := rfl
    rw [hmem]
    cases H.split with
    | true =>
      simp only [if_true]
      rw [q1.1, q1.2, q2.2]
      have : d.addr = c.addr := R.addr
      rw [this]
      rfl
    | false => rfl
  · rw [if_neg hres] at e4 ⊢
    simp only [Outcome.pure_eq, Outcome.ok.injEq, Prod.mk.injEq] at e4
    obtain ⟨rfl, rfl⟩ := e4
    have hres : res = 0 := by omega
    subst hres
    have hsm : ¬ d.size < c.size := by
      intro hlt
      have hds : d.size = cutSize n := by rcases R.cut with h | h <;> omega
      have hfree := (R.rest ⟨c.addr + d.size, c.size - d.size, .free⟩ rfl).2 (Or.inr ⟨hlt, rfl⟩)
      have h32' := (R.wf.has_wf hfree).ge
      simp only at h32'
      rcases splitFreeBloc_zero e3 with h | ⟨a, ha, h⟩
      · rw [g2, hcut, sub64_eq (by omega) (by omega)] at h
        omega
      · rw [g1] at ha
        cases ha
        rw [hcut, ← hds, add64_eq (by omega), largeToV_eq (by omega)] at h
        omega
    unfold splitEv
    rw [if_neg hsm]
    rfl

/-- No chunk and no source. -/
theorem allocLockedH_none {n : Nat} {H : Tab} (S : Source σ) {s : CS σ} (hsrc : s.c.hasSrc = false)
    (h : findFreeChunk s.c.pool s.heap n = .ok (s.heap, 0)) : allocLockedH H S s n = .ok (s, 0, []) := by
  have : refillMemH H S s (calcChunkSize n) = .ok (s, false, []) := by
    unfold refillMemH requestMemH
    rw [hsrc]
    rfl
  unfold allocLockedH searchH
  rw [h, Outcome.ok_bind]
  simp only [CS.setHeap_heap]
  rw [if_pos trivial, this]
  rfl

theorem lockedH_ok {pb : Nat} {A : AHeap} {b n : Nat} (H : Tab) (S : Source σ) (W : A.WF pb)
    (hsz : alignedSize b n + 16 < W63 ∨ (alignedSize b n + 16 < W64 ∧ A.fl 42 = [])) :
    (∀ s : CS σ, s.c.pool = stdPool pb → s.c.hasSrc = false → MemOK (stdPool pb) s.heap A →
      allocLockedH H S s (alignedSize b n) = .ok (s, 0, [])) ∨
    ∃ c d A', A.Has c ∧ c.st = .free ∧ TakeRel pb A c (alignedSize b n) d A' ∧
      n + (if 1 < b then b else 0) + 16 ≤ d.size ∧
      ∀ s : CS σ, s.c.pool = stdPool pb → MemOK (stdPool pb) s.heap A →
        ∃ h', allocLockedH H S s (alignedSize b n) = .ok (s.setHeap h', d.addr + 15, splitEv H s.c.addr c d) ∧
          MemOK (stdPool pb) h' A' := by
  have hcalc := calc_eq (n := alignedSize b n) (by omega)
  by_cases hbig : W63 ≤ calcChunkSize (alignedSize b n)
  · have h42 : A.fl 42 = [] := by
      rcases hsz with h | h
      · omega
      · exact h.2
    refine Or.inl (fun s hp hsrc hM => allocLockedH_none S hsrc ?_)
    have key := findFreeChunk_neg W hbig hM
    rw [h42] at key
    rw [hp]
    exact key
  have hc63 : calcChunkSize (alignedSize b n) < W63 := by omega
  obtain ⟨k, hk⟩ := searchClass_exists (calc_ge (alignedSize b n)) hc63
  cases hf : A.find k (calcChunkSize (alignedSize b n)) with
  | none =>
    refine Or.inl (fun s hp hsrc hM => allocLockedH_none S hsrc ?_)
    have key := findFreeChunk_ok W hc63 hk
    rw [hf] at key
    rw [hp]
    exact key _ hM
  | some c =>
    obtain ⟨k1, k2, d, A1, R, hs⟩ := allocLockedH_found H S W hc63 hk hf
    refine Or.inr ⟨c, d, A1, k1, k2, R, ?_, hs⟩
    have hsize := R.size
    rw [hcalc] at hsize
    clear hsz hk hf hcalc hbig hc63 hs
    unfold alignedSize at hsize
    by_cases h : 1 < b
    · rw [if_pos h] at hsize; rw [if_pos h]; omega
    · rw [if_neg h] at hsize; rw [if_neg h]; omega

/-- The size of the chunk of a block, as it is read from its pointer. -/
def ChunkSize (m : Mem) (p z : Nat) : Prop := ∃ v, getChunkUnpadded m p = .ok v ∧ getSize m v = z

theorem ChunkSize.unique {m : Mem} {p y z : Nat} (h : ChunkSize m p y) (h' : ChunkSize m p z) : y = z := by
  obtain ⟨v, a, b⟩ := h
  obtain ⟨w, c, d⟩ := h'
  rw [a] at c
  cases c
  exact b.symm.trans d

/-- Events and effect of an allocation. -/
def AllocEv (H : Tab) (addr pb : Nat) (A : AHeap) (b n r : Nat) (A' : AHeap) (e : List Ev) : Prop :=
  (r = 0 ∧ A' = A ∧ e = []) ∨
    ∃ c d, GotRel pb A b n c d A' ∧ d.uptr = r ∧ r ≠ 0 ∧
      e = splitEv H addr c d ++ emit H.alloc (.alloc addr (alignedSize b n) r d.size b)

theorem HInv.allocH {pb : Nat} {s : CS σ} {L : List Block} {B : List (Nat × Nat)} {A : AHeap} (H : Tab) (S : Source σ)
    (I : HInv pb s L B A) {b n : Nat} (hb : GoodBound b) (hsz : SizeOK B b n) :
    ∃ s' r e A', allocAlignH H S s b n = .ok (s', r, e) ∧ allocAlign S s b n = .ok (s', r) ∧
      HInv pb s' (account L (.alloc b n) r) B A' ∧ s'.c.noMerge = s.c.noMerge ∧ s'.c.addr = s.c.addr ∧
      AllocEv H s.c.addr pb A b n r A' e := by
  have hsz' := sizeOK_aligned I.wf I.bufs hsz
  have hb8 : b + 8 ≤ W64 := by
    by_cases h : 1 < b
    · have : alignedSize b n = n + b := by unfold alignedSize; rw [if_pos h]
      omega
    · omega
  by_cases hn : n = 0
  · refine ⟨s, 0, [], A, ?_, ?_, ?_, rfl, rfl, Or.inl ⟨rfl, rfl, rfl⟩⟩
    · unfold allocAlignH; rw [if_neg (by simp [I.inv.dead]), if_pos hn]
    · unfold allocAlign; rw [if_neg (by simp [I.inv.dead]), if_pos hn]
    · simpa [account] using I
  have hN : (if b > 1 then add64 n b else n) = alignedSize b n := by
    clear hb8
    unfold alignedSize at hsz' ⊢
    split
    · rw [if_pos (by omega)] at hsz'
      exact add64_eq (by omega)
    · rfl
  have hh : isHuge s.c (alignedSize b n) = false := by simp [isHuge, I.src]
  obtain ⟨s0, hs0⟩ : ∃ s0 : CS σ, s0 = { s with c := { s.c with lock := s.c.threadSafe } } := ⟨_, rfl⟩
  have hlock : lockIf s = .ok s0 := by rw [hs0]; exact lockIf_ok I.inv.dead I.inv.lock
  have p0 : s0.c.pool = stdPool pb := by rw [hs0]; exact I.inv.pool
  have r0 : s0.c.hasSrc = false := by rw [hs0]; exact I.src
  have M0 : MemOK (stdPool pb) s0.heap A := by rw [hs0]; exact I.inv.mem
  have a0 : s0.c.addr = s.c.addr := by rw [hs0]
  have start : allocAlignH H S s b n = (allocLockedH H S s0 (alignedSize b n) >>= fun r =>
      if r.2.1 = 0 then unlockIf r.1 >>= fun s => .ok (s, 0, r.2.2)
      else
        unlockIf (allocHook H r.1 r.2.1 b (alignedSize b n)).1 >>= fun s =>
        .ok ((padAndReturn s r.2.1 b).1, (padAndReturn s r.2.1 b).2,
          r.2.2 ++ (allocHook H r.1 r.2.1 b (alignedSize b n)).2)) := by
    unfold allocAlignH
    rw [if_neg (by simp [I.inv.dead]), if_neg hn]
    simp only
    rw [hN, hh, if_neg (by simp), hlock, Outcome.ok_bind]
  rcases lockedH_ok H S I.wf hsz' with hnone | ⟨c, d, A1, k1, k2, R, hfit, hs⟩
  · have e0 := hnone s0 p0 r0 M0
    have eu : unlockIf s0 = .ok s := by
      have := unlockIf_ok (h := s.heap) I.inv.dead I.inv.lock
      have e : ({ s with c := { s.c with lock := s.c.threadSafe } } : CS σ).setHeap s.heap =
        { s with c := { s.c with lock := s.c.threadSafe } } := rfl
      rw [e, ← hs0] at this
      exact this
    have eH : allocAlignH H S s b n = .ok (s, 0, []) := by
      rw [start, e0, Outcome.ok_bind]
      simp only
      rw [if_pos trivial, eu]
      rfl
    refine ⟨s, 0, [], A, eH, allocAlignH_er hb8 eH, ?_, rfl, rfl, Or.inl ⟨rfl, rfl, rfl⟩⟩
    simpa [account] using I
  · obtain ⟨h1, e1, M1⟩ := hs s0 p0 M0
    have hdU : A1.Used d := ⟨R.has, none, R.st⟩
    have hrd := R.wf.has_range R.has
    obtain ⟨d', A2, P, hne, hpad⟩ := padReturn_ok (σ := σ) (n := n) R.wf hdU R.st hb hfit
    have eu := unlockIf_ok (h := h1) I.inv.dead I.inv.lock
    rw [← hs0] at eu
    obtain ⟨m2, e2, M2, f2⟩ := hpad (s.setHeap h1) M1
    have et := allocHook_tail H (s0.setHeap h1) (v := d.addr + 15) (n := alignedSize b n) hb8
    rw [eu, Outcome.ok_bind, e2] at et
    obtain ⟨u, eu', et'⟩ := Outcome.bind_eq_ok et
    simp only [Outcome.ok.injEq] at et'
    have hev : (allocHook H (s0.setHeap h1) (d.addr + 15) b (alignedSize b n)).2 =
        emit H.alloc (.alloc s.c.addr (alignedSize b n) d'.uptr d.size b) := by
      unfold allocHook emit
      split
      · have e3 : (s0.setHeap h1).w.mem = (s.setHeap h1).w.mem := rfl
        simp only
        rw [e3, hookPad_ptr, e2]
        have e4 : (s0.setHeap h1).c.addr = s.c.addr := a0
        have e5 : (s.setHeap h1).w.mem = h1.mem := rfl
        rw [e4, e5, (chunk_read R.wf M1 R.has).2]
      · rfl
    have eH : allocAlignH H S s b n = .ok ((s.setHeap h1).setMem m2, d'.uptr,
        splitEv H s.c.addr c d ++ emit H.alloc (.alloc s.c.addr (alignedSize b n) d'.uptr d.size b)) := by
      rw [start, e1, Outcome.ok_bind]
      simp only
      rw [if_neg (by omega), eu', Outcome.ok_bind, et', hev, a0]
    have ep := allocAlignH_er hb8 eH
    obtain ⟨A', hR, I', _, nm'⟩ := I.alloc S hb hsz ep
    have ha' : ((s.setHeap h1).setMem m2).c.addr = s.c.addr := rfl
    refine ⟨_, _, _, A', eH, ep, I', nm', ha', ?_⟩
    rcases hR with ⟨h, _⟩ | ⟨c2, d2, G, hu, _⟩
    · exact absurd h hne
    · refine Or.inr ⟨c2, d2, G, hu, hne, ?_⟩
      obtain ⟨q1, _, q3⟩ := getChunkUnpadded_used I'.wf I'.inv.mem ((G.used d2).2 (Or.inr rfl))
      obtain ⟨t1, _, t3⟩ := getChunkUnpadded_used P.wf M2 P.usedD
      rw [hu] at q1
      have q1' : getChunkUnpadded m2 d'.uptr = .ok (d2.addr + 15) := q1
      have t1' : getChunkUnpadded m2 d'.uptr = .ok (d'.addr + 15) := t1
      rw [q1'] at t1'
      have hadd : d2.addr = d'.addr := by
        have := Outcome.ok.inj t1'
        omega
      have q3' : getSize m2 (d2.addr + 15) = d2.size := q3
      have t3' : getSize m2 (d'.addr + 15) = d'.size := t3
      rw [hadd, t3'] at q3'
      have hcc : c2 = c := I.wf.addr_inj G.has k1 (by rw [← G.addr, hadd, P.addr, R.addr])
      rw [hcc]
      have hds : d2.size = d.size := by rw [← q3', P.size]
      unfold splitEv
      rw [hds]

/-- The events of the release of the chunk `c`, merged into the free chunk `m`. -/
def freeEv (H : Tab) (addr : Nat) (c m : Ck) : List Ev :=
  emit H.free (.free addr c.uptr c.size) ++
    (if m.size ≠ c.size then emit H.merge (.merge addr m.addr m.size) else [])

/-- Events and effect of a free. -/
def FreeEv (H : Tab) (addr pb : Nat) (nm : Bool) (A : AHeap) (c : Ck) (A' : AHeap) (e : List Ev) : Prop :=
  FreeRel pb A c A' ∧ ∃ m, A'.Has m ∧ m.st = .free ∧ m.addr ≤ c.addr ∧ c.addr + c.size ≤ m.addr + m.size ∧
    (nm = true → m.size = c.size) ∧ e = freeEv H addr c m

theorem releaseH_ok {pb : Nat} {A : AHeap} {c : Ck} (W : A.WF pb) (hcA : A.Used c) (noMerge : Bool) (H : Tab) :
    ∃ A' m, FreeRel pb A c A' ∧ (noMerge = false → A.NoAdj → A'.NoAdj) ∧
      A'.Has m ∧ m.st = .free ∧ m.addr ≤ c.addr ∧ c.addr + c.size ≤ m.addr + m.size ∧ (noMerge = true → m.size = c.size) ∧
      ∀ (t : CS σ), t.c.pool = stdPool pb → t.c.noMerge = noMerge → MemOK (stdPool pb) t.heap A →
        ∃ h1 h2, mergeH H t (c.addr + 15) = .ok (t.setHeap h1, m.addr + 15,
            (if m.size ≠ c.size then emit H.merge (.merge t.c.addr m.addr m.size) else [])) ∧
          freeListInsert (stdPool pb) h1 m.addr true = .ok h2 ∧ m.addr + 15 < W64 ∧
          MemOK (stdPool pb) h2 A' := by
  have hr := W.has_range hcA.1
  cases noMerge with
  | true =>
    have hcA' := hcA
    obtain ⟨K, hA⟩ := Ctx.of_has hcA.1
    generalize A.fl = fl at hA
    subst hA
    obtain ⟨_, p, hp⟩ := hcA
    have hcu : c.st ≠ .free := by rw [hp]; simp
    obtain ⟨A', R, hs⟩ := insert_rel W hcu true
    have hnr := Ctx.not_rest W (c := c) (by simp)
    refine ⟨A', c.mkFree, ⟨R.wf, ?_, R.shape, ⟨c.mkFree, R.has, rfl, Nat.le_refl _, Nat.le_refl _⟩, R.free, R.keep W hcu⟩, by simp, R.has, rfl,
      Nat.le_refl _, Nat.le_refl _, fun _ => rfl, ?_⟩
    · intro x
      rw [R.used, K.used]
      constructor
      · rintro ⟨h1, h2⟩
        exact ⟨⟨Or.inr h1, h2⟩, by rintro rfl; exact hnr h1⟩
      · rintro ⟨⟨h | h, h2⟩, h3⟩
        · rw [List.mem_singleton] at h; exact absurd h h3
        · exact ⟨h, h2⟩
    · intro t hp hnm hM
      obtain ⟨s', e1, M1, f1⟩ := hs t.heap hM
      refine ⟨t.heap, s', ?_, e1, by simp only [Ck.mkFree]; omega, M1⟩
      unfold mergeH
      rw [hnm, if_pos rfl, Outcome.ok_bind]
      simp only
      have e4 : getSize t.w.mem (c.addr + 15) = getSize t.heap.mem (c.addr + 15) := rfl
      rw [if_neg (by rw [e4]; simp), if_neg (by simp [Ck.mkFree])]
      rfl
  | false =>
    obtain ⟨K, m, fl, R, hs⟩ := merge_rel W hcA
    have hmu : m.st ≠ .free := by rw [R.st]; simp
    obtain ⟨A', R', hs'⟩ := insert_rel R.wf hmu true
    have hmH := K.has_of_mem fl (cs := [m]) (c := m) (by simp)
    have hrm := R.wf.has_range hmH
    refine ⟨A', m.mkFree, ⟨R'.wf, ?_, R'.shape.trans R.shape, ⟨m.mkFree, R'.has, rfl, R.le, R.ge⟩, ?_, R.keep R'⟩,
      fun _ h => R'.noAdj R.fence (R.noAdj h), R'.has, rfl, R.le, R.ge, by simp, ?_⟩
    · intro x; rw [R'.used, R.used]
    · intro x hx
      rcases R'.free x hx with h | h
      · exact Or.inl (R.free x h)
      · exact R.ext x h.1 h.2
    · intro t hp hnm hM
      obtain ⟨s1, e1, M1, f1⟩ := hs t.heap hM
      obtain ⟨s2, e2, M2, f2⟩ := hs' s1 M1
      refine ⟨s1, s2, ?_, e2, by simp only [Ck.mkFree]; omega, M2⟩
      obtain ⟨g1, g2⟩ := chunk_read R.wf M1 hmH
      have g3 : getSize t.w.mem (c.addr + 15) = c.size := (chunk_read W hM hcA.1).2
      unfold mergeH
      rw [hnm, if_neg (by simp), hp, e1, Outcome.ok_bind]
      have e5 : m.mkFree.size = m.size := rfl
      have e6 : m.mkFree.addr = m.addr := rfl
      simp only [e5, e6, g3, g2, g1, Outcome.ok_bind]
      by_cases hmm : m.size = c.size
      · rw [if_neg (fun h => h.2 hmm.symm), if_neg (fun h => h hmm)]
      · rw [if_pos (show m.size ≠ c.size from hmm)]
        cases hH : H.merge with
        | false => rw [if_neg (by simp)]; rfl
        | true => rw [if_pos ⟨rfl, fun h => hmm h.symm⟩]; rfl

theorem HInv.freeH {pb : Nat} {s : CS σ} {L : List Block} {B : List (Nat × Nat)} {A : AHeap} (H : Tab) (S : Source σ)
    (C : Config) (I : HInv pb s L B A) {c : Ck} (hc : A.Used c) :
    ∃ s' e A', chainFreeH H S C s c.uptr = .ok (s', e) ∧ HInv pb s' (account L (.free c.uptr) 0) B A' ∧
      s'.c.noMerge = s.c.noMerge ∧ s'.c.addr = s.c.addr ∧ FreeEv H s.c.addr pb s.c.noMerge A c A' e := by
  obtain ⟨A', m, R, hna, r1, r2, r3, r4, r5, hs⟩ := releaseH_ok (σ := σ) I.wf hc s.c.noMerge H
  obtain ⟨s0, hs0⟩ : ∃ s0 : CS σ, s0 = { s with c := { s.c with lock := s.c.threadSafe } } := ⟨_, rfl⟩
  have hlock : lockIf s = .ok s0 := by rw [hs0]; exact lockIf_ok I.inv.dead I.inv.lock
  have p0 : s0.c.pool = stdPool pb := by rw [hs0]; exact I.inv.pool
  have r0 : s0.c.hasSrc = false := by rw [hs0]; exact I.src
  have n0 : s0.c.noMerge = s.c.noMerge := by rw [hs0]
  have a0 : s0.c.addr = s.c.addr := by rw [hs0]
  have M0 : MemOK (stdPool pb) s0.heap A := by rw [hs0]; exact I.inv.mem
  have b0 : s0.c.base = s.c.base := by rw [hs0]
  have m0 : s0.w = s.w := by rw [hs0]
  obtain ⟨h1, h2, e1, e2, hlt, M2⟩ := hs s0 p0 n0 M0
  have eu := unlockIf_ok (h := h2) I.inv.dead I.inv.lock
  rw [← hs0] at eu
  refine ⟨s.setHeap h2, freeEv H s.c.addr c m, A', ?_, ⟨R.wf, I.inv.setHeap M2 R.shape, I.src, R.shape.trans I.bufs, ?_, ?_,
    I.regs, I.based⟩, rfl, rfl, R, m, r1, r2, r3, r4, r5, rfl⟩
  · obtain ⟨g1, g2, g3⟩ := getChunkUnpadded_used I.wf I.inv.mem hc
    have hr := I.wf.has_range hc.1
    have hu := I.wf.uptr_ge c
    have g1' : getChunkUnpadded s.w.mem c.uptr = .ok (c.addr + 15) := g1
    have g2' : infoState s.w.mem (c.addr + 15) = SALLOC := g2
    have g3' : getSize s.w.mem (c.addr + 15) = c.size := g3
    unfold chainFreeH
    rw [if_neg (by simp [I.inv.dead]), if_neg (by omega), g1', Outcome.ok_bind, if_neg (by omega)]
    rw [if_neg (by simp [g2'])]
    have hh : isHuge s.c (getSize s.w.mem (c.addr + 15)) = false := by simp [isHuge, I.src]
    rw [hh, if_neg (by simp), hlock, Outcome.ok_bind]
    have hbase : ∃ v, (if s.c.base ≠ 0 then getChunk s.w.mem (add64 s.c.base 16) else pure 0) = .ok v := by
      split
      · rename_i h; exact base_getChunk I.wf I.inv h
      · exact ⟨0, rfl⟩
    obtain ⟨v, hv⟩ := hbase
    have hl : freeLockedH H S s0 (c.addr + 15) = .ok (s0.setHeap h2,
        (if m.size ≠ c.size then emit H.merge (.merge s.c.addr m.addr m.size) else [])) := by
      unfold freeLockedH
      rw [Outcome.pure_eq] at hv
      rw [b0, m0, hv, Outcome.ok_bind, e1, Outcome.ok_bind]
      simp only
      have hsrc' : (s0.setHeap h1).c.hasSrc = false := r0
      have hp' : (s0.setHeap h1).c.pool = stdPool pb := p0
      rw [if_neg (by simp [hsrc']), hp', CS.heap_setHeap, vLarge_eq (by omega), e2, Outcome.ok_bind, a0]
      rfl
    rw [hl, Outcome.ok_bind]
    simp only
    rw [eu, Outcome.ok_bind, g3']
    rfl
  · simp only [account]
    exact I.live.del I.wf hc R.used
  · intro h
    exact hna h (I.noAdj h)

/-- Events and effect of a `realloc` of the block of the chunk `c` to `n > 0` bytes. `Q` holds between the two. -/
def ReallocEv (Q : AHeap → Prop) (H : Tab) (addr pb : Nat) (nm : Bool) (A : AHeap) (c : Ck) (b n r : Nat) (A' : AHeap) (e : List Ev) : Prop :=
  (r = c.uptr ∧ A' = A ∧ e = []) ∨
  ∃ A1 e1 e2, Q A1 ∧ r ≠ c.uptr ∧ AllocEv H addr pb A b n r A1 e1 ∧ A1.Used c ∧ FreeEv H addr pb nm A1 c A' e2 ∧ e = e1 ++ e2

theorem HInv.reallocH {pb : Nat} {s : CS σ} {L : List Block} {B : List (Nat × Nat)} {A : AHeap} (H : Tab) (S : Source σ)
    (C : Config) (hfac : C.reallocFactor ≠ 0) (I : HInv pb s L B A) {l : Block} {b n : Nat} (hl : l ∈ L) (hb : GoodBound b) (hsz : SizeOK B b n) (hn : n ≠ 0)
    (hcond : l.plain = true ∨ n ≤ l.len) :
    ∃ c, A.Used c ∧ c.uptr = l.ptr ∧ ∃ s' r e A', chainReallocH H S C b s l.ptr n = .ok (s', r, e) ∧
      HInv pb s' (account L (.realloc l.ptr b n) r) B A' ∧
      s'.c.noMerge = s.c.noMerge ∧ s'.c.addr = s.c.addr ∧ (r = c.uptr → s' = s) ∧
      ReallocEv (fun A1 => ∃ (s1 : CS σ) (L1 : List Block), HInv pb s1 L1 B A1) H s.c.addr pb s.c.noMerge A c b n r A' e := by
  obtain ⟨c, hc, h1, h2, h3⟩ := I.live.used l hl
  refine ⟨c, hc, h1, ?_⟩
  have hr := I.wf.has_range hc.1
  have hge := (I.wf.has_wf hc.1).ge
  have hu := I.wf.uptr_ge c
  have hp : l.ptr ≠ 0 := by omega
  have hold : sub64 c.size 16 = c.size - 16 := sub64_eq (by omega) (by omega)
  have hsafe : ReallocSafe c n := by
    rcases hcond with h | h
    · exact reallocSafe_unpadded n (h3 h) (by omega)
    · unfold ReallocSafe; omega
  obtain ⟨v, e1, e2, e3⟩ := getChunk_used I.wf I.inv.mem hc
  have e1' : getChunk s.w.mem c.uptr = .ok v := e1
  have e3' : getUnpaddedSize s.w.mem v = .ok c.size := e3
  have start : chainReallocH H S C b s l.ptr n =
      (if n ≤ c.size - 16 ∧ sub64 (c.size - 16) n ≤ C.reallocThreshold ∧
          sub64 (c.size - 16) n ≤ (c.size - 16) / C.reallocFactor then .ok (s, c.uptr, [])
      else
        allocAlignH H S s b n >>= fun r =>
        copyTo r.1 r.2.1 c.uptr (if c.size - 16 < n then c.size - 16 else n) >>= fun s1 =>
        chainFreeH H S C s1 c.uptr >>= fun q => .ok (q.1, r.2.1, r.2.2 ++ q.2)) := by
    rw [← h1]
    unfold chainReallocH
    rw [if_neg (by omega), if_neg (by omega), if_neg hn, e1', Outcome.ok_bind, if_pos e2, e3', Outcome.ok_bind]
    rw [hold, if_neg (by omega)]
  by_cases hk : n ≤ c.size - 16 ∧ sub64 (c.size - 16) n ≤ C.reallocThreshold ∧
          sub64 (c.size - 16) n ≤ (c.size - 16) / C.reallocFactor
  · rw [if_pos hk] at start
    refine ⟨s, c.uptr, [], A, start, ?_, rfl, rfl, fun _ => rfl, Or.inl ⟨rfl, rfl, rfl⟩⟩
    have hacc : account L (.realloc l.ptr b n) c.uptr =
        L.map (fun k => if k.ptr = c.uptr then { k with len := n } else k) := by
      simp only [account, if_neg hp]
      rw [if_neg (by omega), if_pos h1, h1]
    rw [hacc]
    refine ⟨I.wf, I.inv, I.src, I.bufs, I.live.resize I.wf hc ?_, I.noAdj, I.regs, I.based⟩
    unfold ReallocSafe at hsafe
    omega
  rw [if_neg hk] at start
  obtain ⟨s1, r, ea, A1, f1, _, I1, nm1, ad1, hE⟩ := HInv.allocH H S I hb hsz
  rw [f1, Outcome.ok_bind] at start
  simp only at start
  have hc1 : A1.Used c := by
    rcases hE with ⟨_, rfl, _⟩ | ⟨c0, d, G, _⟩
    · exact hc
    · exact (G.used c).2 (Or.inl hc)
  obtain ⟨s2, f2, I2, nm2, ad2⟩ : ∃ s2, copyTo s1 r c.uptr (if c.size - 16 < n then c.size - 16 else n) = .ok s2 ∧
      HInv pb s2 (account L (.alloc b n) r) B A1 ∧ s2.c.noMerge = s1.c.noMerge ∧ s2.c.addr = s1.c.addr := by
    unfold copyTo
    by_cases hr0 : r = 0
    · rw [if_neg (by simp [hr0])]
      exact ⟨s1, rfl, I1, rfl, rfl⟩
    rw [if_pos hr0]
    rcases hE with ⟨h, _⟩ | ⟨c0, d, G, hdu, _, _⟩
    · exact absurd h hr0
    subst hdu
    have hmin : (if c.size - 16 < n then c.size - 16 else n) = min (c.size - 16) n := by
      split <;> omega
    rw [hmin]
    have hdc : d ≠ c := by rintro rfl; exact G.fresh hc
    have hdisj := G.wf.has_disj G.usedD.1 hc1.1 hdc
    have hdu := G.wf.uptr_ge d
    have hfit := G.fit
    have hsep : d.uptr + min (c.size - 16) n ≤ c.uptr ∨ c.uptr + min (c.size - 16) n ≤ d.uptr := by
      unfold ReallocSafe at hsafe; omega
    obtain ⟨m2, g2, cp, fr⟩ := memCopy_ok (m := s1.w.mem) hsep
    rw [g2, Outcome.ok_bind]
    refine ⟨s1.setMem m2, rfl, I1.sameBut ⟨rfl, rfl, ?_⟩, rfl, rfl⟩
    intro x hx
    show m2 x = _
    refine fr x ?_
    apply Classical.byContradiction
    intro hcon
    have hxd : A1.UserAt x := ⟨d, G.usedD, by omega, by omega⟩
    rcases hx with hx | ⟨_, hx⟩
    · exact (G.wf.user_quiet hxd).1 hx
    · refine hx ⟨d.uptr, n, decide (b ≤ 1)⟩ ?_ ⟨by simp only; omega, by simp only; omega⟩
      simp [account, hr0]
  rw [f2, Outcome.ok_bind] at start
  obtain ⟨s3, ef, A', f3, I3, nm3, ad3, hF⟩ := HInv.freeH H S C I2 hc1
  rw [f3, Outcome.ok_bind] at start
  rw [nm2, nm1, ad2, ad1] at hF
  have hne : r ≠ c.uptr := by
    rcases hE with ⟨h, _⟩ | ⟨c0, d, G, hdu, _, _⟩
    · omega
    · intro h
      have : d = c := G.wf.uptr_inj G.usedD.1 hc1.1 (by rw [hdu, h])
      subst this
      exact G.fresh hc
  refine ⟨s3, r, ea ++ ef, A', start, ?_, by rw [nm3, nm2, nm1], by rw [ad3, ad2, ad1], fun h => absurd h hne,
    Or.inr ⟨A1, ea, ef, ⟨s2, _, I2⟩, hne, hE, hc1, hF, rfl⟩⟩
  have hacc : account (account L (.alloc b n) r) (.free c.uptr) 0 = account L (.realloc l.ptr b n) r := by
    simp only [account, if_neg hp]
    by_cases hr0 : r = 0
    · rw [if_pos hr0, if_pos hr0, h1]
    · rw [if_neg hr0, if_neg hr0]
      rw [if_neg (by rw [← h1]; exact hne), List.filter_cons, h1]
      simp only
      rw [if_pos (by simpa [h1] using hne)]
  rw [hacc] at I3
  exact I3

end MpcAlloc.Hooks
