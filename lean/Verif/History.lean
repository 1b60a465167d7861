import Verif.ChainRealloc

/-
Invariant of the reachable states of a chain over user buffers.
-/

namespace MpcAlloc

variable {σ : Type}

/-- Correspondence between the live blocks known to the client and the used chunks. -/
structure LiveOK (A : AHeap) (L : List Block) : Prop where
  nodup : (L.map Block.ptr).Nodup
  used : ∀ l ∈ L, ∃ c, A.Used c ∧ c.uptr = l.ptr ∧ l.ptr + l.len ≤ c.addr + c.size ∧
    (l.plain = true → c.st = .used none)
  all : ∀ c, A.Used c → ∃ l ∈ L, l.ptr = c.uptr

/-- Invariant: the state represents `A`, whose used chunks are the live blocks. -/
structure HInv (pb : Nat) (s : CS σ) (L : List Block) (B : List (Nat × Nat)) (A : AHeap) : Prop where
  wf : A.WF pb
  inv : ChainInv pb s A
  src : s.c.hasSrc = false
  bufs : A.shape = B
  live : LiveOK A L
  noAdj : s.c.noMerge = false → A.NoAdj
  regs : s.w.regs.OK
  based : B ≠ [] → s.c.base ≠ 0

theorem AHeap.WF.uptr_le {pb : Nat} {A : AHeap} (W : A.WF pb) {c : Ck} (h : A.Has c) : c.uptr ≤ c.addr + c.size := by
  have := (W.has_wf h).off
  unfold Ck.uptr; omega

theorem AHeap.WF.uptr_inj {pb : Nat} {A : AHeap} (W : A.WF pb) {c d : Ck} (hc : A.Has c) (hd : A.Has d)
    (h : c.uptr = d.uptr) : c = d := by
  by_contra hne
  have := W.has_disj hc hd hne
  have := W.uptr_le hc
  have := W.uptr_le hd
  have := W.uptr_ge c
  have := W.uptr_ge d
  omega

theorem LiveOK.add {pb : Nat} {A A' : AHeap} {L : List Block} (H : LiveOK A L) (W' : A'.WF pb) {d : Ck} {n : Nat}
    {pl : Bool}
    (hu : ∀ x, A'.Used x ↔ A.Used x ∨ x = d) (hf : ¬ A.Used d) (hfit : d.uptr + n ≤ d.addr + d.size)
    (hpl : pl = true → d.st = .used none) : LiveOK A' (⟨d.uptr, n, pl⟩ :: L) := by
  have hd : A'.Used d := (hu d).2 (Or.inr rfl)
  refine ⟨?_, ?_, ?_⟩
  · rw [List.map_cons, List.nodup_cons]
    refine ⟨?_, H.nodup⟩
    intro hm
    obtain ⟨l, hl, he⟩ := List.mem_map.1 hm
    obtain ⟨c, hc, h1, _⟩ := H.used l hl
    have : c = d := W'.uptr_inj ((hu c).2 (Or.inl hc)).1 hd.1 (by rw [h1]; exact he)
    subst this
    exact hf hc
  · intro l hl
    rcases List.mem_cons.1 hl with rfl | hl
    · exact ⟨d, hd, rfl, hfit, hpl⟩
    · obtain ⟨c, hc, h⟩ := H.used l hl
      exact ⟨c, (hu c).2 (Or.inl hc), h⟩
  · intro c hc
    rcases (hu c).1 hc with h | rfl
    · obtain ⟨l, hl, he⟩ := H.all c h
      exact ⟨l, by simp [hl], he⟩
    · exact ⟨_, List.mem_cons_self, rfl⟩

theorem LiveOK.del {pb : Nat} {A A' : AHeap} {L : List Block} (H : LiveOK A L) (W : A.WF pb) {c : Ck}
    (hc : A.Used c) (hu : ∀ x, A'.Used x ↔ A.Used x ∧ x ≠ c) :
    LiveOK A' (L.filter (fun l => decide (l.ptr ≠ c.uptr))) := by
  refine ⟨?_, ?_, ?_⟩
  · exact H.nodup.sublist (List.Sublist.map _ List.filter_sublist)
  · intro l hl
    rw [List.mem_filter] at hl
    obtain ⟨hl, hne⟩ := hl
    obtain ⟨d, hd, h1, h2⟩ := H.used l hl
    refine ⟨d, (hu d).2 ⟨hd, ?_⟩, h1, h2⟩
    rintro rfl
    simp [h1] at hne
  · intro d hd
    obtain ⟨hd, hne⟩ := (hu d).1 hd
    obtain ⟨l, hl, he⟩ := H.all d hd
    refine ⟨l, ?_, he⟩
    rw [List.mem_filter]
    refine ⟨hl, ?_⟩
    simp only [ne_eq, decide_not, Bool.not_eq_eq_eq_not, Bool.not_true, decide_eq_false_iff_not]
    intro h
    exact hne (W.uptr_inj hd.1 hc.1 (by rw [← he, h]))

theorem LiveOK.resize {pb : Nat} {A : AHeap} {L : List Block} (H : LiveOK A L) (W : A.WF pb) {c : Ck} {n : Nat}
    (hc : A.Used c) (hfit : c.uptr + n ≤ c.addr + c.size) :
    LiveOK A (L.map (fun l => if l.ptr = c.uptr then { l with len := n } else l)) := by
  have hptr : ∀ l : Block, (if l.ptr = c.uptr then { l with len := n } else l).ptr = l.ptr := by
    intro l; split <;> rfl
  refine ⟨?_, ?_, ?_⟩
  · rw [List.map_map]
    have : (Block.ptr ∘ fun l : Block => if l.ptr = c.uptr then { l with len := n } else l) = Block.ptr := by
      funext l; exact hptr l
    rw [this]; exact H.nodup
  · intro l hl
    obtain ⟨l0, hl0, rfl⟩ := List.mem_map.1 hl
    obtain ⟨d, hd, h1, h2, h3⟩ := H.used l0 hl0
    refine ⟨d, hd, by rw [hptr]; exact h1, ?_, ?_⟩
    · by_cases e : l0.ptr = c.uptr
      · have : d = c := W.uptr_inj hd.1 hc.1 (by rw [h1, e])
        subst this
        rw [if_pos e]; simp only; omega
      · rw [if_neg e]; exact h2
    · intro h
      apply h3
      by_cases e : l0.ptr = c.uptr
      · rw [if_pos e] at h; exact h
      · rw [if_neg e] at h; exact h
  · intro d hd
    obtain ⟨l, hl, he⟩ := H.all d hd
    exact ⟨_, List.mem_map.2 ⟨l, hl, rfl⟩, by rw [hptr]; exact he⟩

theorem LiveOK.congr {A A' : AHeap} {L : List Block} (H : LiveOK A L) (hu : ∀ x, A'.Used x ↔ A.Used x) :
    LiveOK A' L := by
  refine ⟨H.nodup, ?_, ?_⟩
  · intro l hl
    obtain ⟨c, hc, h⟩ := H.used l hl
    exact ⟨c, (hu c).2 hc, h⟩
  · intro c hc; exact H.all c ((hu c).1 hc)

theorem LiveOK.mem {pb : Nat} {A : AHeap} {L : List Block} (H : LiveOK A L) (_ : A.WF pb) {l : Block} (hl : l ∈ L)
    {x : Nat} (hx : l.Byte x) : A.UserAt x := by
  obtain ⟨c, hc, h1, h2, _⟩ := H.used l hl
  obtain ⟨h3, h4⟩ := hx
  exact ⟨c, hc, by omega, by omega⟩

/-- What a call may change in memory, for the blocks `L` live before and `L'` live after, and the
buffers `B` before and `B'` after. -/
structure Frame (pb : Nat) (op : Op) (r : Nat) (L L' : List Block) (B' : List (Nat × Nat)) (m m' : Mem) : Prop where
  live : (∀ a v, op ≠ .write a v) → ∀ l ∈ L, (∃ l' ∈ L', l'.ptr = l.ptr) → ∀ x, l.Byte x → m' x = m x
  out : ∀ x, ¬ PoolAt pb x → (∀ y ∈ B', ¬ (y.1 ≤ x ∧ x < y.1 + y.2)) → m' x = m x
  write : ∀ a v, op = .write a v → ∀ x, m' x = if x = a then v else m x
  copy : ∀ p b n, op = .realloc p b n → r ≠ 0 → ∀ l ∈ L, l.ptr = p → ∀ i, i < min l.len n → m' (r + i) = m (p + i)

/-- Region entries after a call. -/
def entAfter (noRegion : Bool) (e : Nat → Nat) : Op → Nat → Nat
  | .refill b sz => if noRegion then e else entSet e (b / MB2) (b / MB2 + (sz + MB2 - 1) / MB2) b
  | _ => e

theorem segAt_bufs {A : AHeap} {B : List (Nat × Nat)} (h : A.shape = B) (x : Nat) :
    A.SegAt x ↔ ∃ y ∈ B, y.1 ≤ x ∧ x < y.1 + y.2 := by
  rw [← h]
  unfold AHeap.SegAt AHeap.shape
  simp

theorem freshSeg_of {pb : Nat} {A : AHeap} {L : List Block} {B : List (Nat × Nat)} (h : A.shape = B) {b sz : Nat}
    (hv : ValidOp pb L B (.refill b sz)) : FreshSeg pb A b sz := by
  obtain ⟨h1, h2, h3, h4, h5, h6, h7, h8⟩ := hv
  refine ⟨h1, h2, h3, h4, h5, h6, h7, ?_⟩
  intro s hs
  exact h8 (s.base, s.size) (by rw [← h]; exact List.mem_map.2 ⟨s, hs, rfl⟩)

theorem fl42_nil {pb : Nat} {A : AHeap} {B : List (Nat × Nat)} (W : A.WF pb) (hB : A.shape = B)
    (h : ∀ y ∈ B, y.2 < MB2 + 48) : A.fl 42 = [] := by
  cases hfl : A.fl 42 with
  | nil => rfl
  | cons c l =>
    have hc : c ∈ A.fl 42 := by rw [hfl]; simp
    have hcl := W.flClass 42 c hc
    obtain ⟨g, hg, hcg⟩ := W.flHas 42 c hc
    have hb := (W.seg g hg).bounds hcg
    have := h (g.base, g.size) (by rw [← hB]; exact List.mem_map.2 ⟨g, hg, rfl⟩)
    have h42 : ftbl 42 = MB2 := rfl
    unfold IsStoreClass at hcl
    rw [h42] at hcl
    simp only at this
    omega

theorem sizeOK_aligned {pb : Nat} {A : AHeap} {B : List (Nat × Nat)} {b n : Nat} (W : A.WF pb) (hB : A.shape = B)
    (h : SizeOK B b n) : alignedSize b n + 16 < W63 ∨ (alignedSize b n + 16 < W64 ∧ A.fl 42 = []) := by
  have e : alignedSize b n = n + (if 1 < b then b else 0) := by unfold alignedSize; split <;> omega
  rw [e]
  rcases h with h | ⟨h, h2⟩
  · exact Or.inl h
  · exact Or.inr ⟨h, fl42_nil W hB h2⟩

/-- One block of another chunk is not in the extent of `c`. -/
theorem other_block {pb : Nat} {A : AHeap} {L : List Block} (W : A.WF pb) (H : LiveOK A L) {c : Ck} (hc : A.Used c)
    {l : Block} (hl : l ∈ L) (hne : l.ptr ≠ c.uptr) {x : Nat} (hx : l.Byte x) : x < c.addr ∨ c.addr + c.size ≤ x := by
  obtain ⟨d, hd, h1, h2, _⟩ := H.used l hl
  obtain ⟨h3, h4⟩ := hx
  have hcd : d ≠ c := by rintro rfl; exact hne h1.symm
  have := W.has_disj hd.1 hc.1 hcd
  have := W.uptr_ge d
  omega

theorem exec_free (S : Source σ) (C : Config) (s : CS σ) (p : Nat) :
    exec S C s (.free p) = (chainFree S C s p >>= fun s => pure (s, 0)) := rfl

theorem exec_refill (S : Source σ) (C : Config) (s : CS σ) (b sz : Nat) :
    exec S C s (.refill b sz) = (userRefill s b sz >>= fun s => pure (s, 0)) := rfl

theorem chainRealloc_null (S : Source σ) (C : Config) (b : Nat) (s : CS σ) (n : Nat) (hd : s.c.dead = false) :
    chainRealloc S C b s 0 n = allocAlign S s b n := by
  unfold chainRealloc
  by_cases hn : n = 0
  · rw [if_pos (show 0 = 0 ∧ n = 0 from ⟨rfl, hn⟩)]
    unfold allocAlign
    rw [if_neg (by rw [hd]; simp), if_pos hn]
  · rw [if_neg (show ¬ (0 = 0 ∧ n = 0) from fun h => hn h.2), if_pos (show 0 = 0 from rfl)]
    rfl

theorem chainRealloc_zero (S : Source σ) (C : Config) (b : Nat) (s : CS σ) {p : Nat} (hp : p ≠ 0) :
    chainRealloc S C b s p 0 = (chainFree S C s p >>= fun s => pure (s, 0)) := by
  unfold chainRealloc
  rw [if_neg (show ¬ (p = 0 ∧ 0 = 0) from fun h => hp h.1), if_neg hp, if_pos (show 0 = 0 from rfl)]

/-- The heart of the history proofs: a valid call on a state that represents `A` succeeds, its result and
the new abstract heap depend only on `A`, and it changes only what it may. -/
theorem step_ok {pb : Nat} {A : AHeap} {L : List Block} {B : List (Nat × Nat)} {op : Op} (S : Source σ) (C : Config)
    (hfac : C.reallocFactor ≠ 0) (W : A.WF pb) (hB : A.shape = B) (HL : LiveOK A L)
    (hv : ValidOp pb L B op) (nm : Bool) (hna : nm = false → A.NoAdj) :
    ∃ r A', ∀ s : CS σ, HInv pb s L B A → s.c.noMerge = nm → RegOK s op →
      ∃ s', exec S C s op = .ok (s', r) ∧ HInv pb s' (account L op r) (accountBufs B op) A' ∧
        s'.c.noMerge = nm ∧ s'.c.noRegion = s.c.noRegion ∧ s'.c.addr = s.c.addr ∧ s'.c.threadSafe = s.c.threadSafe ∧
        s'.w.regs.ent = entAfter s.c.noRegion s.w.regs.ent op ∧
        Frame pb op r L (account L op r) (accountBufs B op) s.w.mem s'.w.mem := by
  cases op with
  | alloc b n =>
    obtain ⟨hb, hsz⟩ := hv
    obtain ⟨r, A', hR, W', hs⟩ := alloc_ok S W hb (sizeOK_aligned W hB hsz)
    refine ⟨r, A', ?_⟩
    intro s H hnm _
    obtain ⟨h', e1, M1, f1, z1⟩ := hs s H.inv H.src
    have hsh : A'.shape = A.shape := by
      rcases hR with ⟨_, rfl, _⟩ | ⟨c, d, R, _⟩
      · rfl
      · exact R.shape
    refine ⟨_, e1, ⟨W', H.inv.setHeap M1 hsh, H.src, hsh.trans hB, ?_, ?_, H.regs, H.based⟩, hnm, rfl, rfl, rfl, rfl, ⟨?_, ?_, ?_, ?_⟩⟩
    · rcases hR with ⟨rfl, rfl, _⟩ | ⟨c, d, R, rfl, hne⟩
      · simpa [account] using HL
      · simp only [account, if_neg hne]
        exact HL.add W' R.used R.fresh R.fit (by intro h; exact R.noPad (of_decide_eq_true h))
    · intro h
      rcases hR with ⟨_, rfl, _⟩ | ⟨c, d, R, _⟩
      · exact H.noAdj h
      · exact R.noAdj (H.noAdj h)
    · intro _ l hl _ x hx
      exact f1 x (W.user_quiet (HL.mem W hl hx))
    · intro x h1 h2
      refine f1 x (W.outside_quiet h1 ?_)
      rw [segAt_bufs hB]
      rintro ⟨y, hy, h3⟩
      exact h2 y hy h3
    · intro a v h; cases h
    · intro p b n h; cases h
  | free p =>
    by_cases hp : p = 0
    · subst hp
      refine ⟨0, A, ?_⟩
      intro s H hnm _
      have hL : account L (.free 0) 0 = L := by
        simp only [account]
        apply List.filter_eq_self.2
        intro l hl
        obtain ⟨c, hc, h1, _⟩ := HL.used l hl
        have := W.uptr_ge c
        have : l.ptr ≠ 0 := by omega
        simp [this]
      refine ⟨s, ?_, ?_, hnm, rfl, rfl, rfl, rfl, ⟨fun _ _ _ _ _ _ => rfl, fun _ _ _ => rfl, ?_, ?_⟩⟩
      · rw [exec_free, free_null S C s H.inv.dead]; rfl
      · rw [hL]; exact H
      · intro a v h; cases h
      · intro p b n h; cases h
    · obtain ⟨l, hl, rfl⟩ := hv.resolve_left hp
      obtain ⟨c, hc, h1, h2, _⟩ := HL.used l hl
      obtain ⟨A', R, ⟨hna', _⟩, hs⟩ := free_ok S C W hc nm
      refine ⟨0, A', ?_⟩
      intro s H hnm _
      obtain ⟨h', e1, M1, f1⟩ := hs s H.inv H.src hnm
      refine ⟨_, ?_, ⟨R.wf, H.inv.setHeap M1 R.shape, H.src, R.shape.trans hB, ?_, ?_, H.regs, H.based⟩, hnm, rfl, rfl, rfl, rfl, ⟨?_, ?_, ?_, ?_⟩⟩
      · rw [exec_free, ← h1, e1]; rfl
      · simp only [account]
        rw [← h1]
        exact HL.del W hc R.used
      · intro h
        exact hna' (hnm ▸ h) (H.noAdj h)
      · intro _ k hk ⟨k', hk', he⟩ x hx
        simp only [account, List.mem_filter, decide_eq_true_eq] at hk'
        refine f1 x (W.user_quiet (HL.mem W hk hx)) (other_block W HL hc hk ?_ hx)
        rw [← he, h1]; exact hk'.2
      · intro x g1 g2
        have hns : ¬ A.SegAt x := by
          rw [segAt_bufs hB]; rintro ⟨y, hy, h3⟩; exact g2 y hy h3
        refine f1 x (W.outside_quiet g1 hns) ?_
        by_contra hcon
        obtain ⟨t, ht, hct⟩ := hc.1
        exact hns (A.segAt_ext W ht (Seg.mem_ext hct) (by omega) (by omega))
      · intro a v h; cases h
      · intro p b n h; cases h
  | realloc p b n =>
    obtain ⟨hb, hsz, hp'⟩ := hv
    by_cases hp : p = 0
    · subst hp
      obtain ⟨r, A', hR, W', hs⟩ := alloc_ok S W hb (sizeOK_aligned W hB hsz)
      refine ⟨r, A', ?_⟩
      intro s H hnm _
      obtain ⟨h', e1, M1, f1, z1⟩ := hs s H.inv H.src
      have hsh : A'.shape = A.shape := by
        rcases hR with ⟨_, rfl, _⟩ | ⟨c, d, R, _⟩
        · rfl
        · exact R.shape
      have hex : exec S C s (.realloc 0 b n) = .ok (s.setHeap h', r) := by
        rw [← e1]; exact chainRealloc_null S C b s n H.inv.dead
      refine ⟨_, hex, ⟨W', H.inv.setHeap M1 hsh, H.src, hsh.trans hB, ?_, ?_, H.regs, H.based⟩, hnm, rfl, rfl, rfl, rfl, ⟨?_, ?_, ?_, ?_⟩⟩
      · rcases hR with ⟨rfl, rfl, _⟩ | ⟨c, d, R, rfl, hne⟩
        · simpa [account] using HL
        · simp only [account, if_neg hne]
          exact HL.add W' R.used R.fresh R.fit (by intro h; exact R.noPad (of_decide_eq_true h))
      · intro h
        rcases hR with ⟨_, rfl, _⟩ | ⟨c, d, R, _⟩
        · exact H.noAdj h
        · exact R.noAdj (H.noAdj h)
      · intro _ l hl _ x hx
        exact f1 x (W.user_quiet (HL.mem W hl hx))
      · intro x h1 h2
        refine f1 x (W.outside_quiet h1 ?_)
        rw [segAt_bufs hB]
        rintro ⟨y, hy, h3⟩
        exact h2 y hy h3
      · intro a v h; cases h
      · intro p b' n' h _ l hl he
        cases h
        obtain ⟨c, _, g1, _⟩ := HL.used l hl
        have := W.uptr_ge c
        omega
    obtain ⟨l, hl, rfl, hcond⟩ := hp'.resolve_left hp
    obtain ⟨c, hc, h1, h2, h3⟩ := HL.used l hl
    by_cases hn : n = 0
    · subst hn
      obtain ⟨A', R, ⟨hna', _⟩, hs⟩ := free_ok S C W hc nm
      refine ⟨0, A', ?_⟩
      intro s H hnm _
      obtain ⟨h', e1, M1, f1⟩ := hs s H.inv H.src hnm
      have hacc : account L (.realloc l.ptr b 0) 0 = L.filter (fun k => decide (k.ptr ≠ c.uptr)) := by
        simp only [account, if_neg hp, if_pos, h1]
      refine ⟨_, ?_, ⟨R.wf, H.inv.setHeap M1 R.shape, H.src, R.shape.trans hB, ?_, ?_, H.regs, H.based⟩, hnm, rfl, rfl, rfl, rfl, ⟨?_, ?_, ?_, ?_⟩⟩
      · show chainRealloc S C b s l.ptr 0 = _
        rw [chainRealloc_zero S C b s hp, ← h1, e1]; rfl
      · rw [hacc]
        exact HL.del W hc R.used
      · intro h
        exact hna' (hnm ▸ h) (H.noAdj h)
      · intro _ k hk ⟨k', hk', he⟩ x hx
        rw [hacc] at hk'
        simp only [List.mem_filter, decide_eq_true_eq] at hk'
        refine f1 x (W.user_quiet (HL.mem W hk hx)) (other_block W HL hc hk ?_ hx)
        rw [← he]; exact hk'.2
      · intro x g1 g2
        have hns : ¬ A.SegAt x := by
          rw [segAt_bufs hB]; rintro ⟨y, hy, h3⟩; exact g2 y hy h3
        refine f1 x (W.outside_quiet g1 hns) ?_
        by_contra hcon
        obtain ⟨t, ht, hct⟩ := hc.1
        exact hns (A.segAt_ext W ht (Seg.mem_ext hct) (by omega) (by omega))
      · intro a v h; cases h
      · intro p b' n' h hr; cases h; exact absurd rfl hr
    · have hwf := W.has_wf hc.1
      have hge := hwf.ge
      have hup := W.uptr_ge c
      have hsafe : ReallocSafe c n := by
        rcases hcond with h | h | h
        · exact absurd h hn
        · exact reallocSafe_unpadded n (h3 h) (by omega)
        · unfold ReallocSafe; omega
      have hkfit : n ≤ c.size - 16 → c.uptr + n ≤ c.addr + c.size := by
        intro hle
        unfold ReallocSafe at hsafe
        omega
      obtain ⟨r, A', hR, W', hna', hsh, hs⟩ := realloc_ok S C W hc hb hn (sizeOK_aligned W hB hsz) hfac hsafe nm
      refine ⟨r, A', ?_⟩
      intro s H hnm _
      obtain ⟨h', e1, M1, f1, cp, kp⟩ := hs s H.inv H.src hnm
      have key : LiveOK A' (account L (.realloc l.ptr b n) r) ∧
          ((r = c.uptr ∧ h' = s.heap) ∨
            ∀ k' ∈ account L (.realloc l.ptr b n) r, k'.ptr = c.uptr → False) := by
        cases hR with
        | keep hk =>
          refine ⟨?_, Or.inl ⟨rfl, kp rfl⟩⟩
          have : account L (.realloc l.ptr b n) c.uptr =
              L.map (fun k => if k.ptr = c.uptr then { k with len := n } else k) := by
            simp only [account, if_neg hp]
            rw [if_neg (by omega), if_pos h1, h1]
          rw [this]
          exact HL.resize W hc (hkfit hk.1)
        | fail hk hno RF =>
          have : account L (.realloc l.ptr b n) 0 = L.filter (fun k => decide (k.ptr ≠ c.uptr)) := by
            simp only [account, if_neg hp, if_true]
            rw [h1]
          rw [this]
          refine ⟨HL.del W hc RF.used, Or.inr ?_⟩
          intro k' hk' he
          simp [he] at hk'
        | @move A1 A' c0 d hk R RF hne =>
          have hdc : d ≠ c := by rintro rfl; exact R.fresh hc
          have hcU1 : A1.Used c := (R.used c).2 (Or.inl hc)
          have hdu : d.uptr ≠ c.uptr := fun h => hdc (R.wf.uptr_inj R.usedD.1 hcU1.1 h)
          have : account L (.realloc l.ptr b n) d.uptr =
              ⟨d.uptr, n, decide (b ≤ 1)⟩ :: L.filter (fun k => decide (k.ptr ≠ c.uptr)) := by
            simp only [account, if_neg hp]
            rw [if_neg hne, if_neg (by rw [← h1]; exact hdu), h1]
          rw [this]
          have H1 : LiveOK A1 (⟨d.uptr, n, decide (b ≤ 1)⟩ :: L) :=
            HL.add R.wf R.used R.fresh R.fit (by intro h; exact R.noPad (of_decide_eq_true h))
          have H2 := H1.del R.wf hcU1 RF.used
          rw [List.filter_cons] at H2
          simp only at H2
          rw [if_pos (by simpa using hdu)] at H2
          refine ⟨H2, Or.inr ?_⟩
          intro k' hk' he
          rcases List.mem_cons.1 hk' with rfl | hk'
          · exact hdu he
          · simp [he] at hk'
      have hbufs : A'.shape = B := hsh.trans hB
      refine ⟨_, ?_, ⟨W', H.inv.setHeap M1 hsh, H.src, hbufs, key.1, ?_, H.regs, H.based⟩, hnm, rfl, rfl, rfl, rfl, ⟨?_, ?_, ?_, ?_⟩⟩
      · unfold exec; simp only; rw [← h1]; exact e1
      · intro h; exact hna' (hnm ▸ h) (H.noAdj h)
      · intro _ k hk ⟨k', hk', he⟩ x hx
        rcases key.2 with ⟨_, rfl⟩ | hnone
        · rfl
        · refine f1 x (W.user_quiet (HL.mem W hk hx)) (other_block W HL hc hk ?_ hx)
          intro h
          exact hnone k' hk' (he.trans h)
      · intro x g1 g2
        have hns : ¬ A.SegAt x := by
          rw [segAt_bufs hB]; rintro ⟨y, hy, h3⟩; exact g2 y hy h3
        refine f1 x (W.outside_quiet g1 hns) ?_
        by_contra hcon
        obtain ⟨t, ht, hct⟩ := hc.1
        exact hns (A.segAt_ext W ht (Seg.mem_ext hct) (by omega) (by omega))
      · intro a v h; cases h
      · intro p b' n' h hr k hk he i hi
        cases h
        obtain ⟨d, hd, g1, g2, _⟩ := HL.used k hk
        have : d = c := W.uptr_inj hd.1 hc.1 (by rw [g1, he, h1])
        subst this
        have := cp hr i (by omega)
        rw [h1] at this
        exact this
  | refill b sz =>
    have F := freshSeg_of hB hv
    obtain ⟨A', R, hs⟩ := refill_ok (σ := σ) W F
    refine ⟨0, A', ?_⟩
    intro s H hnm hreg
    obtain ⟨h', Rg, e1, M1, hR1, _, f1⟩ := hs s H.inv (fun h => ⟨H.regs, (hreg h).1, (hreg h).2⟩)
    have hge := F.ge
    refine ⟨refilled s h' Rg b sz, ?_, ⟨R.wf, ⟨H.inv.pool, M1, H.inv.dead, H.inv.lock, ?_⟩, H.src, ?_, HL.congr R.used, ?_, ?_, ?_⟩, hnm, rfl, rfl, rfl, ?_,
      ⟨?_, ?_, ?_, ?_⟩⟩
    · rw [exec_refill, e1]; rfl
    · intro hb
      simp only [refilled] at hb ⊢
      by_cases h0 : s.c.base = 0
      · rw [if_pos h0, if_pos h0]
        have : (b, sz) ∈ A'.shape := by rw [R.shape]; simp
        obtain ⟨g, hg, he⟩ := List.mem_map.1 this
        simp only [Prod.mk.injEq] at he
        exact ⟨g, hg, he.1, by rw [he.1, he.2]⟩
      · rw [if_neg h0, if_neg h0]
        obtain ⟨g, hg, g1, g2⟩ := H.inv.base h0
        have : (g.base, g.size) ∈ A'.shape := by
          rw [R.shape]; exact List.mem_append_left _ (List.mem_map.2 ⟨g, hg, rfl⟩)
        obtain ⟨g', hg', he⟩ := List.mem_map.1 this
        simp only [Prod.mk.injEq] at he
        exact ⟨g', hg', by rw [he.1]; exact g1, by rw [he.1, he.2]; exact g2⟩
    · simp only [accountBufs]
      rw [R.shape, hB]
    · intro h; exact R.noAdj (H.noAdj h)
    · unfold RegDone at hR1
      cases hnr : s.c.noRegion with
      | true => rw [hnr, if_pos rfl] at hR1; simp only [refilled]; rw [hR1]; exact H.regs
      | false => rw [hnr, if_neg (by simp)] at hR1; exact hR1.1
    · intro _
      have := F.pos
      simp only [refilled]
      split <;> omega
    · unfold RegDone at hR1
      cases hnr : s.c.noRegion with
      | true => rw [hnr, if_pos rfl] at hR1; simp only [refilled, entAfter, if_true]; rw [hR1]
      | false =>
        rw [hnr, if_neg (by simp)] at hR1
        simp only [refilled, entAfter]
        rw [if_neg (by simp)]; exact hR1.2
    · intro _ l hl _ x hx
      have hu := HL.mem W hl hx
      have hq := W.user_quiet hu
      refine f1 x hq.1 hq.2.1 ?_
      obtain ⟨c, ⟨⟨t, ht, hct⟩, _⟩, g1, g2⟩ := hu
      have := (W.seg t ht).bounds hct
      have := W.uptr_ge c
      have := F.disj t ht
      have := (W.seg t ht).ge
      omega
    · intro x g1 g2
      have hns : ¬ A.SegAt x := by
        rw [segAt_bufs hB]; rintro ⟨y, hy, h3⟩; exact g2 y (by simp [accountBufs, hy]) h3
      refine f1 x g1 (W.outside_quiet g1 hns).2.1 ?_
      have := g2 (b, sz) (by simp [accountBufs])
      simp only at this
      omega
    · intro a v h; cases h
    · intro p b n h; cases h
  | write a v =>
    obtain ⟨l, hl, hx⟩ := hv
    refine ⟨0, A, ?_⟩
    intro s H hnm _
    have hu := HL.mem W hl hx
    refine ⟨_, rfl, ⟨W, ⟨H.inv.pool, ?_, H.inv.dead, H.inv.lock, H.inv.base⟩, H.src, hB, HL, H.noAdj, H.regs, H.based⟩, hnm, rfl, rfl, rfl, rfl,
      ⟨?_, ?_, ?_, ?_⟩⟩
    · refine H.inv.mem.congr W ?_
      intro x hm
      have : x ≠ a := by
        rintro rfl
        rcases hm with hm | hm
        · exact (W.user_quiet hu).1 hm
        · exact hm.2 hu
      show (if x = a then v else s.w.mem x) = _
      rw [if_neg this]; rfl
    · intro h; exact absurd rfl (h a v)
    · intro x g1 g2
      have hns : ¬ A.SegAt x := by
        rw [segAt_bufs hB]; rintro ⟨y, hy, h3⟩; exact g2 y hy h3
      have : x ≠ a := by
        rintro rfl
        obtain ⟨c, ⟨⟨t, ht, hct⟩, _⟩, k1, k2⟩ := hu
        have := W.uptr_ge c
        exact hns (A.segAt_ext W ht (Seg.mem_ext hct) (by omega) (by omega))
      simp [CS.setMem, this]
    · intro a' v' h x
      cases h
      rfl
    · intro p b n h; cases h

theorem init_inv {pb addr : Nat} (w : World σ) (ts nm nr : Bool) (h1 : 0 < pb) (h2 : pb + 1536 < W64)
    (hr : w.regs.OK) : ∃ s, userInit w addr pb 0 0 ts nm nr = .ok s ∧ HInv pb s [] [] emptyHeap := by
  obtain ⟨s, e, I, g1, _, _, _, _, _, _, g2, _⟩ := chainBaseInit_ok w (addr := addr) ts nm nr h1 h2
  refine ⟨{ s with c := { s.c with hasSrc := false } }, ?_, ?_⟩
  · unfold userInit
    rw [e, Outcome.ok_bind, if_neg (by simp)]
    rfl
  · refine ⟨emptyHeap_wf h1 h2, ⟨I.pool, I.mem, I.dead, I.lock, I.base⟩, rfl, rfl, ⟨by simp, by simp, ?_⟩, ?_, ?_, ?_⟩
    · rintro c ⟨⟨t, ht, _⟩, _⟩
      simp [emptyHeap] at ht
    · intro _ t ht
      simp [emptyHeap] at ht
    · show s.w.regs.OK
      rw [g1]; exact hr
    · intro h; exact absurd rfl h

/-- Reachable states satisfy the invariant. -/
theorem reach_inv {S : Source σ} {C : Config} {pb : Nat} {s : CS σ} {L : List Block} {B : List (Nat × Nat)}
    (hf : C.reallocFactor ≠ 0) (h : Reach S C pb s L B) : ∃ A, HInv pb s L B A := by
  induction h with
  | init h1 h2 hr e =>
    obtain ⟨s', e', H⟩ := init_inv (σ := σ) _ _ _ _ h1 h2 hr
    rw [e'] at e
    cases e
    exact ⟨_, H⟩
  | step _ hv hreg e ih =>
    obtain ⟨A, H⟩ := ih
    obtain ⟨r', A', hs⟩ := step_ok S C hf H.wf H.bufs H.live hv _ H.noAdj
    obtain ⟨s2, e2, H2, _⟩ := hs _ H rfl hreg
    rw [e] at e2
    cases e2
    exact ⟨A', H2⟩

/-- The same, also after any run. -/
theorem Reach.run {S : Source σ} {C : Config} {pb : Nat} {s s' : CS σ} {L L' : List Block} {B B' : List (Nat × Nat)}
    {ops : List Op} {rs : List Nat} (h : Reach S C pb s L B) (hr : Run S C pb s L B ops rs s' L' B') :
    Reach S C pb s' L' B' := by
  induction hr with
  | nil => exact h
  | cons hv hreg e _ ih => exact ih (h.step hv hreg e)

/-- The representation only depends on the bytes of `SameBut`. -/
theorem HInv.sameBut {pb : Nat} {s t : CS σ} {L : List Block} {B : List (Nat × Nat)} {A : AHeap}
    (H : HInv pb s L B A) (h : SameBut pb L B s t) : HInv pb t L B A := by
  obtain ⟨hc, hr, hm⟩ := h
  refine ⟨H.wf, ⟨by rw [hc]; exact H.inv.pool, ?_, by rw [hc]; exact H.inv.dead, by rw [hc]; exact H.inv.lock, ?_⟩,
    by rw [hc]; exact H.src, H.bufs, H.live, by rw [hc]; exact H.noAdj, by rw [hr]; exact H.regs,
    by rw [hc]; exact H.based⟩
  · have : t.heap = ⟨t.w.mem, s.heap.status⟩ := by unfold CS.heap; rw [hc]
    rw [this]
    refine H.inv.mem.congr H.wf ?_
    intro x hx
    refine hm x ?_
    rcases hx with hx | ⟨hx, hu⟩
    · exact Or.inl hx
    · refine Or.inr ⟨(segAt_bufs H.bufs x).1 hx, ?_⟩
      intro l hl hb
      exact hu (H.live.mem H.wf hl hb)
  · rw [hc]; exact H.inv.base

theorem SameCall.valid {pb : Nat} {L : List Block} {B : List (Nat × Nat)} {o o' : Op} (h : SameCall o o')
    (hv : ValidOp pb L B o) : ValidOp pb L B o' := by
  cases h with
  | refl => exact hv
  | write a v v' => exact hv

theorem SameCall.account {L : List Block} {B : List (Nat × Nat)} {o o' : Op} (h : SameCall o o') (r : Nat) :
    account L o' r = MpcAlloc.account L o r ∧ accountBufs B o' = accountBufs B o := by
  cases h with
  | refl => exact ⟨rfl, rfl⟩
  | write a v v' => exact ⟨rfl, rfl⟩

/-- Two states that represent the same abstract heap give the same results for ever. -/
theorem run_sim {S : Source σ} {C : Config} {pb : Nat} (hf : C.reallocFactor ≠ 0) {s s' : CS σ} {L L' : List Block}
    {B B' : List (Nat × Nat)} {ops : List Op} {rs : List Nat} (hr : Run S C pb s L B ops rs s' L' B') :
    ∀ {A : AHeap} {t : CS σ} {ops' : List Op}, HInv pb s L B A → HInv pb t L B A → t.c.noMerge = s.c.noMerge →
      t.c.noRegion = s.c.noRegion → t.w.regs.ent = s.w.regs.ent → List.Forall₂ SameCall ops ops' →
      ∃ t', Run S C pb t L B ops' rs t' L' B' := by
  induction hr with
  | nil =>
    intro A t ops' _ _ _ _ _ h
    cases h
    exact ⟨t, .nil⟩
  | @cons s s1 s2 L L2 B B2 op ops r rs hv hreg e _ ih =>
    intro A t ops' Hs Ht h1 h2 h3 h
    cases h with
    | @cons _ op' _ ops'' hop hops =>
      obtain ⟨r1, A1, g1⟩ := step_ok S C hf Hs.wf Hs.bufs Hs.live hv _ Hs.noAdj
      obtain ⟨s1', e1, K1, k1, k2, _, _, k3, _⟩ := g1 s Hs rfl hreg
      rw [e] at e1
      cases e1
      have hregt : RegOK t op := by
        cases op with
        | refill b sz =>
          intro hn
          rw [h3]
          exact hreg (by rw [← h2]; exact hn)
        | _ => trivial
      cases hop with
      | refl =>
        obtain ⟨t1, e2, K2, l1, l2, _, _, l3, _⟩ := g1 t Ht h1 hregt
        obtain ⟨t', hrun⟩ := ih K1 K2 (l1.trans k1.symm) (by rw [l2, k2, h2]) (by rw [l3, k3, h2, h3]) hops
        exact ⟨t', .cons hv hregt e2 hrun⟩
      | write a v v' =>
        obtain ⟨t0, e0, K0, l1, l2, _, _, l3, F0⟩ := g1 t Ht h1 hregt
        cases e
        cases e0
        have hv' : ValidOp pb L B (.write a v') := hv
        have K2 : HInv pb (t.setMem (fun x => if x = a then v' else t.w.mem x)) L B A1 := by
          have K0' : HInv pb (t.setMem (fun x => if x = a then v else t.w.mem x)) L B A1 := K0
          refine K0'.sameBut ⟨rfl, rfl, ?_⟩
          intro x hx
          have hxa : x ≠ a := by
            rintro rfl
            obtain ⟨l, hl, hb⟩ := hv
            have hu := Hs.live.mem Hs.wf hl hb
            rcases hx with hx | hx
            · exact (Hs.wf.user_quiet hu).1 hx
            · exact hx.2 l hl hb
          simp [CS.setMem, hxa]
        obtain ⟨t', hrun⟩ := ih K1 K2 h1 h2 h3 hops
        exact ⟨t', .cons hv' trivial rfl hrun⟩

end MpcAlloc
