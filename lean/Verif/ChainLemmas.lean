import Verif.HeapUser

/-
Chain calls on a represented heap: allocation, free, realloc and refill.
-/

namespace MpcAlloc

variable {σ : Type}

/-- The chain state represents the abstract heap `A`. -/
structure ChainInv (pb : Nat) (s : CS σ) (A : AHeap) : Prop where
  pool : s.c.pool = stdPool pb
  mem : MemOK (stdPool pb) s.heap A
  dead : s.c.dead = false
  lock : s.c.lock = false
  base : s.c.base ≠ 0 → ∃ g ∈ A.segs, g.base = s.c.base ∧ s.c.end_ = g.base + g.size

theorem CS.setHeap_heap (s : CS σ) : s.setHeap s.heap = s := rfl
@[simp] theorem CS.heap_setHeap (s : CS σ) (h : Heap) : (s.setHeap h).heap = h := rfl
@[simp] theorem CS.setHeap_setHeap (s : CS σ) (h h' : Heap) : (s.setHeap h).setHeap h' = s.setHeap h' := rfl
theorem CS.setMem_setHeap (s : CS σ) (h : Heap) (m : Mem) :
    (s.setHeap h).setMem m = s.setHeap { h with mem := m } := rfl
@[simp] theorem CS.setHeap_mem (s : CS σ) (h : Heap) : (s.setHeap h).w.mem = h.mem := rfl

/-- Size actually searched by an aligned allocation. -/
def alignedSize (b n : Nat) : Nat := if 1 < b then n + b else n

theorem calc_eq {n : Nat} (h : n + 16 < W64) : calcChunkSize n = max 32 (n + 16) := by
  unfold calcChunkSize
  simp only
  rw [add64_eq (by omega)]
  split <;> omega

/-- Locking, an operation on the pool view, unlocking. -/
theorem lockIf_ok {s : CS σ} (h1 : s.c.dead = false) (h2 : s.c.lock = false) :
    lockIf s = .ok { s with c := { s.c with lock := s.c.threadSafe } } := by
  unfold lockIf
  rw [if_neg (by simp [h1])]
  cases hts : s.c.threadSafe with
  | true => simp [h2]
  | false =>
    obtain ⟨w, c⟩ := s
    obtain ⟨⟩ := c
    simp_all

theorem unlockIf_ok {s : CS σ} {h : Heap} (h1 : s.c.dead = false) (h2 : s.c.lock = false) :
    unlockIf (({ s with c := { s.c with lock := s.c.threadSafe } } : CS σ).setHeap h) = .ok (s.setHeap h) := by
  unfold unlockIf
  obtain ⟨w, c⟩ := s
  obtain ⟨a, p, st, ts⟩ := c
  change _ = false at h1
  change _ = false at h2
  subst h1 h2
  cases ts <;> rfl

/-- Found case of the locked part of an allocation. -/
theorem allocLocked_found {pb : Nat} {A : AHeap} {n k : Nat} {c : Ck} (S : Source σ) (W : A.WF pb)
    (hsz : calcChunkSize n < W63) (hk : searchClass (calcChunkSize n) k)
    (hf : A.find k (calcChunkSize n) = some c) :
    A.Has c ∧ c.st = .free ∧ ∃ d A', TakeRel pb A c n d A' ∧
      ∀ s : CS σ, s.c.pool = stdPool pb → MemOK (stdPool pb) s.heap A →
        ∃ h', allocLocked S s n = .ok (s.setHeap h', d.addr + 15) ∧ MemOK (stdPool pb) h' A' ∧
          ∀ x, Quiet pb A x → h'.mem x = s.w.mem x := by
  have key := findFreeChunk_ok W hsz hk
  rw [hf] at key
  simp only at key
  obtain ⟨k1, k2, k3, k4⟩ := key
  obtain ⟨d, A', R, hs⟩ := takeChunk_ok W k1 k2 k3
  refine ⟨k1, k2, d, A', R, ?_⟩
  intro s hp hM
  obtain ⟨s1, s', e1, e2, M2, f2⟩ := hs s.heap hM
  refine ⟨s', ?_, M2, f2⟩
  have hr := W.has_range k1
  unfold allocLocked
  rw [hp, k4 _ hM, e1, Outcome.ok_bind, Outcome.pure_eq, Outcome.ok_bind]
  simp only
  rw [if_neg (by omega), Outcome.pure_eq, Outcome.ok_bind]
  simp only
  rw [if_neg (by omega)]
  unfold takeChunk at e2
  by_cases h32 : hSize s1.mem c.addr < 32
  · rw [if_pos h32] at e2; exact absurd e2 (by simp)
  rw [if_neg h32] at e2
  rw [if_neg (show ¬ hSize (s.setHeap s1).w.mem c.addr < 32 from h32)]
  obtain ⟨⟨m, v, res⟩, e3, e4⟩ := Outcome.bind_eq_ok e2
  rw [CS.setHeap_mem, e3, Outcome.ok_bind]
  simp only at e4 ⊢
  by_cases hcs : getSize m v < calcChunkSize n
  · rw [if_pos hcs] at e4; exact absurd e4 (by simp)
  rw [if_neg hcs] at e4
  rw [if_neg (show ¬ getSize ((s.setHeap s1).setMem m).w.mem v < calcChunkSize n from hcs)]
  by_cases hres : res ≠ 0
  · rw [if_pos hres] at e4 ⊢
    obtain ⟨h, e5, e6⟩ := Outcome.bind_eq_ok e4
    have hpool : ((s.setHeap s1).setMem m).c.pool = stdPool pb := hp
    have hheap : ((s.setHeap s1).setMem m).heap = { s1 with mem := m } := rfl
    rw [hpool, hheap, e5, Outcome.ok_bind]
    simp only [Outcome.pure_eq, Outcome.ok.injEq, Prod.mk.injEq] at e6
    obtain ⟨rfl, rfl⟩ := e6
    rfl
  · rw [if_neg hres] at e4 ⊢
    simp only [Outcome.pure_eq, Outcome.ok.injEq, Prod.mk.injEq] at e4
    obtain ⟨rfl, rfl⟩ := e4
    rfl

/-- Not found, no source. -/
theorem allocLocked_none {pb : Nat} {A : AHeap} {n k : Nat} (S : Source σ) (W : A.WF pb)
    (hsz : calcChunkSize n < W63) (hk : searchClass (calcChunkSize n) k)
    (hf : A.find k (calcChunkSize n) = none) {s : CS σ} (hp : s.c.pool = stdPool pb) (hsrc : s.c.hasSrc = false)
    (hM : MemOK (stdPool pb) s.heap A) : allocLocked S s n = .ok (s, 0) := by
  have key := findFreeChunk_ok W hsz hk
  rw [hf] at key
  simp only at key
  unfold allocLocked
  rw [hp, key _ hM, Outcome.ok_bind]
  have : refillMem S s (calcChunkSize n) = .ok (s, false) := by
    unfold refillMem requestMem
    simp [hsrc]
  simp only [CS.setHeap_heap]
  rw [if_pos trivial, this]
  rfl

/-! ### Requests of 2^63 bytes or more -/

theorem calc_lt (n : Nat) : calcChunkSize n < W64 := by
  unfold calcChunkSize
  simp only
  have := add64_lt n 16
  split <;> omega

theorem AHeap.WF.fl43 {pb : Nat} {A : AHeap} (W : A.WF pb) : A.fl 43 = [] := by
  cases h : A.fl 43 with
  | nil => rfl
  | cons c l =>
    have := W.flClass 43 c (by rw [h]; simp)
    unfold IsStoreClass at this
    omega

theorem findFreeChunk_neg {pb : Nat} {A : AHeap} {n : Nat} (W : A.WF pb) (hsz : W63 ≤ calcChunkSize n) {s : Heap}
    (H : MemOK (stdPool pb) s A) :
    findFreeChunk (stdPool pb) s n =
      match A.fl 42 with
      | [] => .ok (s, 0)
      | c :: _ => (do
        let s' ← freeListRemove (stdPool pb) s c.addr
        pure (s', c.addr)) := by
  unfold findFreeChunk
  have hg : getFreeList (stdPool pb).sizes (stdPool pb).nb (stdPool pb).analytic (calcChunkSize n) = .ok 43 := by
    have := getFreeListFast_neg hsz (calc_lt n)
    simpa [getFreeList, stdPool] using this
  simp only [hg, Outcome.ok_bind]
  rw [if_neg (by omega)]
  have h43 : firstNonEmpty s.status (43 : Int).toNat (stdPool pb).nb = none := by
    rw [show (43 : Int).toNat = 43 from rfl, show (stdPool pb).nb = 44 from rfl, firstNonEmpty_eq H]
    simp [W.fl43]
  rw [h43]
  simp only [Outcome.ok_bind]
  have hneg : toS (calcChunkSize n) < 0 := by
    have := calc_lt n
    unfold toS; rw [if_neg (by omega)]; omega
  have hfa : findAdapted s.mem ((stdPool pb).head ((43 : Int).toNat - 1)) (calcChunkSize n) =
      .ok (((A.fl 42).head?.map Ck.addr).getD 0) := by
    rw [show (43 : Int).toNat - 1 = 42 from rfl]
    unfold findAdapted
    rw [findLoop_spec (H.lists 42 (by omega))]
    · cases hfl : A.fl 42 with
      | nil => simp
      | cons c l =>
        have hH := W.flHas 42 c (by rw [hfl]; simp)
        have := W.has_range hH
        have hpos : toS (calcChunkSize n) ≤ toS (hSize s.mem c.addr) := by
          rw [H.hsize W hH, toS_eq (a := c.size) (by omega)]; omega
        simp [hpos]
    · intro x hx
      obtain ⟨c, hc, rfl⟩ := List.mem_map.1 hx
      have hH := W.flHas 42 c hc
      have h1 := W.has_range hH
      have h2 := W.has_pool hH
      have h3 := (W.has_wf hH).ge
      have : (stdPool pb).head 42 = pb + 32 * 42 := rfl
      omega
  rw [if_pos ⟨trivial, by decide⟩, hfa, Outcome.ok_bind]
  cases hfl : A.fl 42 with
  | nil => simp
  | cons c l =>
    have hH := W.flHas 42 c (by rw [hfl]; simp)
    have := W.has_range hH
    have e : ((c :: l).head?.map Ck.addr).getD 0 = c.addr := rfl
    rw [if_pos (show ((c :: l).head?.map Ck.addr).getD 0 ≠ 0 by rw [e]; omega)]
    rfl

theorem allocLocked_neg_none {pb : Nat} {A : AHeap} {n : Nat} (S : Source σ) (W : A.WF pb)
    (hsz : W63 ≤ calcChunkSize n) (hf : A.fl 42 = []) {s : CS σ} (hp : s.c.pool = stdPool pb) (hsrc : s.c.hasSrc = false)
    (hM : MemOK (stdPool pb) s.heap A) : allocLocked S s n = .ok (s, 0) := by
  have key := findFreeChunk_neg W hsz hM
  rw [hf] at key
  simp only at key
  unfold allocLocked
  rw [hp, key, Outcome.ok_bind]
  have : refillMem S s (calcChunkSize n) = .ok (s, false) := by
    unfold refillMem requestMem
    simp [hsrc]
  simp only [CS.setHeap_heap]
  rw [if_pos trivial, this]
  rfl

theorem getPtr_cases (m : Mem) (v : Nat) : (∃ a, getPtr m v = .ok a) ∨ getPtr m v = .abort := by
  unfold getPtr
  split
  · exact Or.inl ⟨_, rfl⟩
  · split
    · exact Or.inl ⟨_, rfl⟩
    · exact Or.inr rfl

theorem splitFreeBloc_cases (m : Mem) (v n : Nat) :
    (∃ r, splitFreeBloc m v n = .ok r) ∨ splitFreeBloc m v n = .abort := by
  unfold splitFreeBloc
  simp only
  split
  · rcases getPtr_cases m v with ⟨a, h⟩ | h
    · rw [h, Outcome.ok_bind]
      simp only [Outcome.ok_bind]
      generalize setupChunk m (add64 a (alignSize16 (calcChunkSize n)))
        (sub64 (getSize m v) (alignSize16 (calcChunkSize n))) a = q
      rcases getPtr_cases q.1 v with ⟨a', h'⟩ | h'
      · rw [h', Outcome.ok_bind]; exact Or.inl ⟨_, rfl⟩
      · rw [h']; exact Or.inr rfl
    · rw [h]; exact Or.inr rfl
  · exact Or.inl ⟨_, rfl⟩

theorem allocLocked_neg_abort {pb : Nat} {A : AHeap} {n : Nat} (S : Source σ) (W : A.WF pb)
    (hsz : W63 ≤ calcChunkSize n) (hf : A.fl 42 ≠ []) {s : CS σ} (hp : s.c.pool = stdPool pb)
    (hM : MemOK (stdPool pb) s.heap A) : allocLocked S s n = .abort := by
  have key := findFreeChunk_neg W hsz hM
  cases hfl : A.fl 42 with
  | nil => exact absurd hfl hf
  | cons c l =>
    rw [hfl] at key
    simp only at key
    have hH := W.flHas 42 c (by rw [hfl]; simp)
    have hr := W.has_range hH
    obtain ⟨K, hK⟩ := Ctx.of_has hH
    have hfl' : A.fl 42 = [] ++ c :: l := hfl
    obtain ⟨s', e', _⟩ := freeListRemove_ok (K := K) (c := c) (fl := A.fl) (l1 := []) (l2 := l) (by rw [← hK]; exact W)
      hfl' (by rw [← hK]; exact hM)
    unfold allocLocked
    rw [hp, key, e', Outcome.ok_bind]
    simp only [Outcome.pure_eq, Outcome.ok_bind]
    rw [if_neg (by omega), Outcome.ok_bind]
    simp only
    rw [if_neg (by omega)]
    split
    · rfl
    · rcases splitFreeBloc_cases (s.setHeap s').w.mem (largeToV c.addr) n with ⟨⟨m, v, res⟩, h⟩ | h
      · rw [h, Outcome.ok_bind]
        simp only
        rw [if_pos]
        have := readLE_lt ((s.setHeap s').setMem m).w.mem (vLarge v) 7
        unfold getSize hSize
        omega
      · rw [h]; rfl

/-- Abstract effect of a successful allocation. -/
structure GotRel (pb : Nat) (A : AHeap) (b n : Nat) (c d : Ck) (A' : AHeap) : Prop where
  wf : A'.WF pb
  has : A.Has c
  free : c.st = .free
  addr : d.addr = c.addr
  le : d.size ≤ c.size
  min : calcChunkSize (alignedSize b n) ≤ d.size
  small : c.size ≤ MB2
  used : ∀ x, A'.Used x ↔ A.Used x ∨ x = d
  fresh : ¬ A.Used d
  fit : d.uptr + n ≤ d.addr + d.size
  align : 1 < b → b ∣ d.uptr
  align16 : b ≤ 1 → 16 ∣ d.uptr
  noPad : b ≤ 1 → d.st = .used none
  shape : A'.shape = A.shape
  noAdj : A.NoAdj → A'.NoAdj
  freeAt : ∀ x, A'.FreeAt x → A.FreeAt x
  tight : d.size < cutSize (alignedSize b n) + 32
  rest : ∀ x : Ck, x.st = .free → (A'.Has x ↔ (A.Has x ∧ x ≠ c) ∨
    (d.size < c.size ∧ x = ⟨c.addr + d.size, c.size - d.size, .free⟩))
  ptr : d.uptr = if b ≤ 1 ∨ (d.addr + 16) % b = 0 then d.addr + 16 else alignUp (d.addr + 24) b
  cut : d.size = c.size ∨ d.size = cutSize (alignedSize b n)
  pick : ∃ k, searchClass (calcChunkSize (alignedSize b n)) k ∧ A.find k (calcChunkSize (alignedSize b n)) = some c
  lists : (d.size = c.size ∧ A'.fl = flDel A.fl [c]) ∨ (d.size < c.size ∧ ∃ j, IsStoreClass (c.size - d.size) j ∧
    A'.fl = updFl (flDel A.fl [c]) j (⟨c.addr + d.size, c.size - d.size, .free⟩ :: flDel A.fl [c] j))

/-- Abstract effect of an allocation on a chain without source. -/
def AllocRel (pb : Nat) (A : AHeap) (b n r : Nat) (A' : AHeap) : Prop :=
  (r = 0 ∧ A' = A ∧
    (n ≠ 0 → ∀ c, A.Has c → c.st = .free → c.size ≤ MB2 → c.size < calcChunkSize (alignedSize b n))) ∨
  (∃ c d, GotRel pb A b n c d A' ∧ d.uptr = r ∧ r ≠ 0)

theorem AHeap.WF.addr_dvd {pb : Nat} {A : AHeap} (W : A.WF pb) {c : Ck} (h : A.Has c) : 16 ∣ c.addr := by
  obtain ⟨s, hs, hc⟩ := h
  exact (W.seg s hs).addr_dvd hc

/-- Found case of an allocation that is not huge, after padding. -/
theorem alloc_found {pb : Nat} {A : AHeap} {b n k : Nat} {c : Ck} (S : Source σ) (W : A.WF pb)
    (hb : GoodBound b) (hn : n ≠ 0) (hsz : alignedSize b n + 16 < W63)
    (hk : searchClass (calcChunkSize (alignedSize b n)) k)
    (hf : A.find k (calcChunkSize (alignedSize b n)) = some c) :
    ∃ d A', GotRel pb A b n c d A' ∧ d.uptr ≠ 0 ∧
      ∀ s : CS σ, ChainInv pb s A → isHuge s.c (alignedSize b n) = false →
        ∃ h', allocAlign S s b n = .ok (s.setHeap h', d.uptr) ∧ MemOK (stdPool pb) h' A' ∧
          ∀ x, Quiet pb A x → h'.mem x = s.w.mem x := by
  have hcalc := calc_eq (n := alignedSize b n) (by omega)
  have hc63 : calcChunkSize (alignedSize b n) < W63 := by omega
  obtain ⟨k1, k2, d, A1, R, hs⟩ := allocLocked_found S W hc63 hk hf
  have hdU : A1.Used d := ⟨R.has, none, R.st⟩
  have hsize := R.size
  obtain ⟨d', A', R', hne, hs'⟩ := padReturn_ok (σ := σ) (n := n) R.wf hdU R.st hb
    (by rw [hcalc] at hsize; unfold alignedSize at hsize; split <;> simp_all <;> omega)
  have hnd : ¬ A.Used d := by
    rintro ⟨h1, p, h2⟩
    have := W.addr_inj h1 k1 R.addr
    subst this
    rw [k2] at h2; simp at h2
  have hnd' : ¬ A.Used d' := by
    rintro ⟨h1, p, h2⟩
    have := W.addr_inj h1 k1 (R'.addr.trans R.addr)
    subst this
    rw [k2] at h2; simp at h2
  have hsmall : c.size ≤ MB2 := by
    have hk44 : k ≤ 44 := by
      rcases hk.2 with h | h
      · have := h.1; omega
      · omega
    obtain ⟨i, hi, hci, _⟩ := AHeap.find_lt hk44 hf
    rcases W.flClass i c hci with h | h
    · exact h.1
    · omega
  refine ⟨d', A', ⟨R'.wf, k1, k2, R'.addr.trans R.addr, by rw [R'.size]; exact R.le,
    by rw [R'.size]; exact R.size, hsmall, ?_, hnd', R'.fit, R'.align,
    ?_, R'.noPad, R'.shape.trans R.shape, fun h => R'.noAdj (R.noAdj h), fun x hx => R.free x ((R'.free x).1 hx),
    by rw [R'.size]; exact R.tight, fun x hx => by rw [R'.rest x hx, R'.size]; exact R.rest x hx,
    by rw [R'.addr]; exact R'.ptr, by rw [R'.size]; exact R.cut, ⟨k, hk, hf⟩, by rw [R'.lists, R'.size]; exact R.lists⟩,
    hne, ?_⟩
  · intro x
    rw [R'.used, R.used]
    constructor
    · rintro (⟨h1 | h1, h2⟩ | h1)
      · exact Or.inl h1
      · exact absurd h1 h2
      · exact Or.inr h1
    · rintro (h1 | h1)
      · exact Or.inl ⟨Or.inl h1, by rintro rfl; exact hnd h1⟩
      · exact Or.inr h1
  · intro h
    have h1 := R'.noPad h
    have h2 := R'.wf.addr_dvd R'.usedD.1
    unfold Ck.uptr Ck.off
    rw [h1]
    simp only
    omega
  · intro s I hh
    obtain ⟨h1, e1, M1, f1⟩ := hs { s with c := { s.c with lock := s.c.threadSafe } } I.pool I.mem
    obtain ⟨m2, e2, M2, f2⟩ := hs' (s.setHeap h1) M1
    rw [CS.setMem_setHeap] at e2
    refine ⟨{ h1 with mem := m2 }, ?_, M2, ?_⟩
    · unfold allocAlign
      rw [if_neg (by simp [I.dead]), if_neg hn]
      simp only
      have hN : (if b > 1 then add64 n b else n) = alignedSize b n := by
        unfold alignedSize at hsz ⊢
        split
        · rw [if_pos (by omega)] at hsz
          exact add64_eq (by omega)
        · rfl
      rw [hN, hh, if_neg (by simp), lockIf_ok I.dead I.lock, Outcome.ok_bind, e1, Outcome.ok_bind]
      simp only
      rw [unlockIf_ok I.dead I.lock, Outcome.ok_bind, if_neg (by omega), Outcome.pure_eq, e2]
    · intro x hx
      rw [← f1 x hx]
      refine f2 x ?_
      by_contra hcon
      refine hx.2.1 ⟨c, k1, k2, ?_, ?_⟩ <;> [have := R.addr; (have := R.addr; have := R.le)] <;> omega

/-- Allocation on a chain without source. -/
theorem alloc_ok {pb : Nat} {A : AHeap} {b n : Nat} (S : Source σ) (W : A.WF pb)
    (hb : GoodBound b) 
    (hsz : alignedSize b n + 16 < W63 ∨ (alignedSize b n + 16 < W64 ∧ A.fl 42 = [])) :
    ∃ r A', AllocRel pb A b n r A' ∧ A'.WF pb ∧
      ∀ s : CS σ, ChainInv pb s A → s.c.hasSrc = false →
        ∃ h', allocAlign S s b n = .ok (s.setHeap h', r) ∧ MemOK (stdPool pb) h' A' ∧
          (∀ x, Quiet pb A x → h'.mem x = s.w.mem x) ∧ (r = 0 → h' = s.heap) := by
  by_cases hn : n = 0
  · refine ⟨0, A, Or.inl ⟨rfl, rfl, fun h => absurd hn h⟩, W, ?_⟩
    intro s I _
    refine ⟨s.heap, ?_, I.mem, fun _ _ => rfl, fun _ => rfl⟩
    unfold allocAlign
    rw [if_neg (by simp [I.dead]), if_pos hn, CS.setHeap_heap]
  have hcalc := calc_eq (n := alignedSize b n) (by omega)
  have hN : (if b > 1 then add64 n b else n) = alignedSize b n := by
    unfold alignedSize at hsz ⊢
    split
    · rw [if_pos (by omega)] at hsz
      exact add64_eq (by omega)
    · rfl
  by_cases hbig : W63 ≤ calcChunkSize (alignedSize b n)
  · have h42 : A.fl 42 = [] := by
      rcases hsz with h | h
      · omega
      · exact h.2
    refine ⟨0, A, Or.inl ⟨rfl, rfl, ?_⟩, W, ?_⟩
    · intro _ c hc hcf hle
      omega
    · intro s I hsrc
      refine ⟨s.heap, ?_, I.mem, fun _ _ => rfl, fun _ => rfl⟩
      unfold allocAlign
      rw [if_neg (by simp [I.dead]), if_neg hn]
      simp only
      have hh : isHuge s.c (alignedSize b n) = false := by simp [isHuge, hsrc]
      rw [hN, hh, if_neg (by simp), lockIf_ok I.dead I.lock, Outcome.ok_bind]
      rw [allocLocked_neg_none S W hbig h42 (s := { s with c := { s.c with lock := s.c.threadSafe } })
        I.pool hsrc I.mem, Outcome.ok_bind]
      simp only
      have := unlockIf_ok (h := s.heap) I.dead I.lock
      have e : ({ s with c := { s.c with lock := s.c.threadSafe } } : CS σ).setHeap s.heap =
        { s with c := { s.c with lock := s.c.threadSafe } } := rfl
      rw [e] at this
      rw [this, Outcome.ok_bind, if_pos trivial]
      rfl
  have hc63 : calcChunkSize (alignedSize b n) < W63 := by omega
  obtain ⟨k, hk⟩ := searchClass_exists (calc_ge (alignedSize b n)) hc63
  cases hf : A.find k (calcChunkSize (alignedSize b n)) with
  | none =>
    refine ⟨0, A, Or.inl ⟨rfl, rfl, ?_⟩, W, ?_⟩
    · intro _ c hc hcf hle
      rcases hk.2 with h | h
      · exact W.find_complete h hf hc hcf hle
      · omega
    · intro s I hsrc
      refine ⟨s.heap, ?_, I.mem, fun _ _ => rfl, fun _ => rfl⟩
      unfold allocAlign
      rw [if_neg (by simp [I.dead]), if_neg hn]
      simp only
      have hh : isHuge s.c (alignedSize b n) = false := by simp [isHuge, hsrc]
      rw [hN, hh, if_neg (by simp), lockIf_ok I.dead I.lock, Outcome.ok_bind]
      rw [allocLocked_none S W hc63 hk hf (s := { s with c := { s.c with lock := s.c.threadSafe } })
        I.pool hsrc I.mem, Outcome.ok_bind]
      simp only
      have := unlockIf_ok (h := s.heap) I.dead I.lock
      have e : ({ s with c := { s.c with lock := s.c.threadSafe } } : CS σ).setHeap s.heap =
        { s with c := { s.c with lock := s.c.threadSafe } } := rfl
      rw [e] at this
      rw [this, Outcome.ok_bind, if_pos trivial]
      rfl
  | some c =>
    obtain ⟨d, A', R, hne, hs⟩ := alloc_found S W hb hn (by omega) hk hf
    refine ⟨d.uptr, A', Or.inr ⟨c, d, R, rfl, hne⟩, R.wf, ?_⟩
    intro s I hsrc
    obtain ⟨h', e1, M1, f1⟩ := hs s I (by simp [isHuge, hsrc])
    exact ⟨h', e1, M1, f1, fun h => absurd h hne⟩

/-! ### Free -/

theorem getChunkUnpadded_used {pb : Nat} {A : AHeap} {h : Heap} {c : Ck} (W : A.WF pb)
    (H : MemOK (stdPool pb) h A) (hc : A.Used c) :
    getChunkUnpadded h.mem c.uptr = .ok (c.addr + 15) ∧ infoState h.mem (c.addr + 15) = SALLOC ∧
      getSize h.mem (c.addr + 15) = c.size := by
  obtain ⟨hcH, p, hp⟩ := hc
  have hr := W.has_range hcH
  have hw := W.has_wf hcH
  obtain ⟨z, hm⟩ := H.hdr hcH
  have hh := hm.hdr
  have hnum : c.st.num = 1 := by rw [hp]; rfl
  rw [hnum, Ck.hdrSize_eq hw.nstop] at hh
  refine ⟨?_, hh.state (by omega), getSize_large hh (by omega)⟩
  cases p with
  | none =>
    have : c.uptr = c.addr + 16 := by unfold Ck.uptr Ck.off; rw [hp]
    rw [this]
    exact getChunkUnpadded_large hh (by omega) (by omega)
  | some q =>
    have hoff := hw.off
    have e1 : c.off = 24 + q := by unfold Ck.off; rw [hp]
    have : c.uptr = c.addr + 24 + q := by unfold Ck.uptr; omega
    rw [this]
    exact getChunkUnpadded_padded hh (by omega) (hm.pad q hp) (by omega)

theorem base_getChunk {pb : Nat} {A : AHeap} {s : CS σ} (W : A.WF pb) (I : ChainInv pb s A)
    (h : s.c.base ≠ 0) : ∃ v, getChunk s.w.mem (add64 s.c.base 16) = .ok v := by
  obtain ⟨g, hg, hb, _⟩ := I.base h
  have hw := W.seg g hg
  have := hw.lt
  have := hw.ge
  have hi := (I.mem.segs g hg).info
  rw [hb] at hi
  rw [add64_eq (by omega)]
  unfold getChunk
  rw [if_neg (by omega)]
  simp only
  have e : sub64 (s.c.base + 16) 1 = s.c.base + 15 := by rw [sub64_eq (by omega) (by omega)]; omega
  rw [e]
  have e2 : infoMagic s.w.mem (s.c.base + 15) = MAGIC := by
    unfold infoMagic MAGIC
    have hi' : (s.w.mem (s.c.base + 15)).toNat = 133 := hi
    rw [hi']
  have e3 : infoType s.w.mem (s.c.base + 15) = TLARGE := by
    unfold infoType TLARGE
    have hi' : (s.w.mem (s.c.base + 15)).toNat = 133 := hi
    rw [hi']
  rw [if_neg (by simp [e2]), if_pos (Or.inl e3)]
  exact ⟨_, rfl⟩

theorem freeLocked_ok {pb v : Nat} {t : CS σ} {h' : Heap} {noMerge : Bool} (S : Source σ)
    (hp : t.c.pool = stdPool pb) (hsrc : t.c.hasSrc = false) (hnm : t.c.noMerge = noMerge)
    (hb : ∃ v, (if t.c.base ≠ 0 then getChunk t.w.mem (add64 t.c.base 16) else pure 0) = .ok v)
    (e : releaseChunk (stdPool pb) noMerge t.heap v = .ok h') : freeLocked S t v = .ok (t.setHeap h') := by
  obtain ⟨u, hu⟩ := hb
  unfold freeLocked
  rw [hu, Outcome.ok_bind, hnm, hp]
  unfold releaseChunk at e
  obtain ⟨⟨h1, v1⟩, e2, e3⟩ := Outcome.bind_eq_ok e
  rw [e2, Outcome.ok_bind]
  simp only at e3 ⊢
  have hsrc' : (t.setHeap h1).c.hasSrc = false := hsrc
  rw [if_neg (by simp [hsrc'])]
  have hp' : (t.setHeap h1).c.pool = stdPool pb := hp
  rw [hp', CS.heap_setHeap, e3, Outcome.ok_bind]
  rfl

/-- Free of a live block on a chain without source. -/
theorem free_ok {pb : Nat} {A : AHeap} {c : Ck} (S : Source σ) (C : Config) (W : A.WF pb) (hc : A.Used c)
    (noMerge : Bool) :
    ∃ A', FreeRel pb A c A' ∧ ((noMerge = false → A.NoAdj → A'.NoAdj) ∧ (noMerge = true → A'.Has c.mkFree)) ∧
      ∀ s : CS σ, ChainInv pb s A → s.c.hasSrc = false → s.c.noMerge = noMerge →
        ∃ h', chainFree S C s c.uptr = .ok (s.setHeap h') ∧ MemOK (stdPool pb) h' A' ∧
          ∀ x, Quiet pb A x → (x < c.addr ∨ c.addr + c.size ≤ x) → h'.mem x = s.w.mem x := by
  obtain ⟨A', R, hna, hs⟩ := release_ok W hc noMerge
  refine ⟨A', R, hna, ?_⟩
  intro s I hsrc hnm
  obtain ⟨h', e1, M1, f1⟩ := hs s.heap I.mem
  refine ⟨h', ?_, M1, f1⟩
  obtain ⟨g1, g2, g3⟩ := getChunkUnpadded_used W I.mem hc
  have hr := W.has_range hc.1
  have hu := W.uptr_ge c
  have g1' : getChunkUnpadded s.w.mem c.uptr = .ok (c.addr + 15) := g1
  have g2' : infoState s.w.mem (c.addr + 15) = SALLOC := g2
  unfold chainFree
  rw [if_neg (by simp [I.dead]), if_neg (by omega), g1', Outcome.ok_bind, if_neg (by omega)]
  rw [if_neg (by simp [g2'])]
  have hh : isHuge s.c (getSize s.w.mem (c.addr + 15)) = false := by simp [isHuge, hsrc]
  rw [hh, if_neg (by simp), lockIf_ok I.dead I.lock, Outcome.ok_bind]
  have hbase : ∃ v, (if s.c.base ≠ 0 then getChunk s.w.mem (add64 s.c.base 16) else pure 0) = .ok v := by
    split
    · rename_i h; exact base_getChunk W I h
    · exact ⟨0, rfl⟩
  have hl := freeLocked_ok S (t := { s with c := { s.c with lock := s.c.threadSafe } }) I.pool hsrc hnm hbase e1
  rw [hl, Outcome.ok_bind, unlockIf_ok I.dead I.lock]

/-- Free of NULL. -/
theorem free_null (S : Source σ) (C : Config) (s : CS σ) (h : s.c.dead = false) :
    chainFree S C s 0 = .ok s := by
  unfold chainFree; rw [if_neg (by simp [h]), if_pos rfl]

theorem ChainInv.setHeap {pb : Nat} {A A' : AHeap} {s : CS σ} {h : Heap} (I : ChainInv pb s A)
    (M : MemOK (stdPool pb) h A') (hsh : A'.shape = A.shape) : ChainInv pb (s.setHeap h) A' := by
  refine ⟨I.pool, M, I.dead, I.lock, ?_⟩
  intro hb
  obtain ⟨g, hg, h1, h2⟩ := I.base hb
  have : (g.base, g.size) ∈ A'.shape := by
    rw [hsh]; exact List.mem_map.2 ⟨g, hg, rfl⟩
  obtain ⟨g', hg', he⟩ := List.mem_map.1 this
  simp only [Prod.mk.injEq] at he
  refine ⟨g', hg', by rw [he.1]; exact h1, ?_⟩
  rw [he.1, he.2]; exact h2

end MpcAlloc
