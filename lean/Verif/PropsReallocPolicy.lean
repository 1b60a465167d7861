import Verif.PropsPolicy
import Verif.PropsChain2
import Verif.PropsChainNeg

/-!
C76: when `realloc` leaves a block where it is.
-/

namespace MpcAlloc

variable {σ : Type}

/-! ### Specification -/

/-- A block of `k` usable bytes is not moved by a `realloc` to `n` bytes: the new size fits, and what is lost is within the
threshold and at most the `factor`-th part of the usable size. -/
def Stays (C : Config) (k n : Nat) : Prop :=
  n ≤ k ∧ k - n ≤ C.reallocThreshold ∧ k - n ≤ k / C.reallocFactor

/-- The block that a call frees or resizes (0 if none). -/
def Op.target : Op → Nat
  | .free p => p
  | .realloc p _ _ => p
  | _ => 0

/-! ### Lemmas -/

/-- The usable size read from the header of a used chunk. -/
theorem usable_used {pb : Nat} {A : AHeap} {h : Heap} {c : Ck} (W : A.WF pb) (H : MemOK (stdPool pb) h A) (hc : A.Used c) :
    posixGetSize h.mem c.uptr = .ok (c.addr + c.size - c.uptr) := by
  have hge := W.uptr_ge c
  have hle := W.uptr_le hc.1
  have hr := W.has_range hc.1
  have hsz := (W.has_wf hc.1).ge
  obtain ⟨g1, g2, g3⟩ := getChunkUnpadded_used W H hc
  unfold posixGetSize
  rw [if_neg (by omega), g1, Outcome.ok_bind, if_neg (by omega), Outcome.pure_eq]
  unfold getUsableSize
  have g3' : hSize h.mem (vLarge (c.addr + 15)) = c.size := g3
  rw [g3', sub64_eq (a := c.uptr) (by omega) (by omega), sub64_eq (a := c.size) (by omega) (by omega)]
  congr 1
  unfold sub64 add64
  omega

/-- A call leaves the used chunks alone, except the one of the block it frees or resizes. -/
theorem exec_used {S : Source σ} {C : Config} {pb : Nat} {s s' : CS σ} {L : List Block} {B : List (Nat × Nat)} {A : AHeap}
    {op : Op} {r : Nat} (hf : C.reallocFactor ≠ 0) (H : HInv pb s L B A) (hv : ValidOp pb L B op) (hr : RegOK s op)
    (e : exec S C s op = .ok (s', r)) :
    ∃ A', A'.WF pb ∧ MemOK (stdPool pb) s'.heap A' ∧ ∀ c, A.Used c → c.uptr ≠ op.target → A'.Used c := by
  cases op with
  | alloc b n =>
    obtain ⟨A', hR, H', _⟩ := H.alloc S hv.1 hv.2 e
    refine ⟨A', H'.wf, H'.inv.mem, fun c hc _ => ?_⟩
    rcases hR with ⟨_, rfl, _⟩ | ⟨_, d, R, _⟩
    · exact hc
    · exact (R.used c).2 (Or.inl hc)
  | free p =>
    simp only [exec] at e
    obtain ⟨x, h1, h2⟩ := Outcome.bind_eq_ok e
    obtain rfl := (Prod.mk.inj (Outcome.ok.inj h2)).1
    by_cases hp : p = 0
    · subst hp
      have : x = s := by
        unfold chainFree at h1
        rw [if_pos rfl, if_neg (by simp [H.inv.dead])] at h1
        exact (Outcome.ok.inj h1).symm
      subst this
      exact ⟨A, H.wf, H.inv.mem, fun c hc _ => hc⟩
    · obtain ⟨l, hl, rfl⟩ := hv.resolve_left hp
      obtain ⟨c, hc, g1, _⟩ := H.live.used l hl
      rw [← g1] at h1
      obtain ⟨A', R, H', _⟩ := H.free S C hc h1
      refine ⟨A', H'.wf, H'.inv.mem, fun d hd hne => (R.used d).2 ⟨hd, ?_⟩⟩
      rintro rfl
      exact hne g1
  | realloc p b n =>
    obtain ⟨hb, hsz, hp'⟩ := hv
    by_cases hp : p = 0
    · subst hp
      have e1 : allocAlign S s b n = .ok (s', r) := by
        rw [← e]; exact (chainRealloc_null S C b s n H.inv.dead).symm
      obtain ⟨A', hR, H', _⟩ := H.alloc S hb hsz e1
      refine ⟨A', H'.wf, H'.inv.mem, fun c hc _ => ?_⟩
      rcases hR with ⟨_, rfl, _⟩ | ⟨_, d, R, _⟩
      · exact hc
      · exact (R.used c).2 (Or.inl hc)
    · obtain ⟨l, hl, rfl, hcond⟩ := hp'.resolve_left hp
      obtain ⟨c, hc, g1, g2, g3⟩ := H.live.used l hl
      have e1 : chainRealloc S C b s c.uptr n = .ok (s', r) := by rw [g1]; exact e
      have hge := (H.wf.has_wf hc.1).ge
      by_cases hn : n = 0
      · subst hn
        rw [chainRealloc_zero S C b s (by rw [g1]; exact hp)] at e1
        obtain ⟨x, h1, h2⟩ := Outcome.bind_eq_ok e1
        obtain rfl := (Prod.mk.inj (Outcome.ok.inj h2)).1
        obtain ⟨A', R, H', _⟩ := H.free S C hc h1
        refine ⟨A', H'.wf, H'.inv.mem, fun d hd hne => (R.used d).2 ⟨hd, ?_⟩⟩
        rintro rfl
        exact hne g1
      · have hsafe : ReallocSafe c n := by
          rcases hcond with h | h | h
          · exact absurd h hn
          · exact reallocSafe_unpadded n (g3 h) (by omega)
          · unfold ReallocSafe; omega
        obtain ⟨r', A', hR, W', _, _, hs⟩ := realloc_ok S C H.wf hc hb hn (sizeOK_aligned H.wf H.bufs hsz) hf hsafe s.c.noMerge
        obtain ⟨h', e2, M, _⟩ := hs s H.inv H.src rfl
        rw [e1] at e2
        obtain ⟨rfl, rfl⟩ := Prod.mk.inj (Outcome.ok.inj e2)
        refine ⟨A', W', M, fun d hd hne => ?_⟩
        have hdc : d ≠ c := by rintro rfl; exact hne g1
        cases hR with
        | keep _ => exact hd
        | fail _ _ RF => exact (RF.used d).2 ⟨hd, hdc⟩
        | move _ R RF _ => exact (RF.used d).2 ⟨(R.used d).2 (Or.inl hd), hdc⟩
  | refill b sz =>
    have F := freshSeg_of H.bufs hv
    obtain ⟨A', R, hs⟩ := refill_ok (σ := σ) H.wf F
    obtain ⟨h', Rg, e1, M1, _⟩ := hs s H.inv (fun h => ⟨H.regs, (hr h).1, (hr h).2⟩)
    rw [exec_refill, e1] at e
    obtain ⟨rfl, _⟩ := Prod.mk.inj (Outcome.ok.inj e)
    exact ⟨A', R.wf, M1, fun c hc _ => (R.used c).2 hc⟩
  | write a v =>
    obtain ⟨r', A', hs⟩ := step_ok S C hf H.wf H.bufs H.live hv _ H.noAdj
    obtain ⟨l, hl, hx⟩ := hv
    have hu := H.live.mem H.wf hl hx
    have e2 : s' = s.setMem (fun x => if x = a then v else s.w.mem x) := by
      simp only [exec] at e
      exact (Prod.mk.inj (Outcome.ok.inj e)).1.symm
    subst e2
    refine ⟨A, H.wf, H.inv.mem.congr H.wf ?_, fun c hc _ => hc⟩
    intro x hm
    have : x ≠ a := by
      rintro rfl
      rcases hm with hm | hm
      · exact (H.wf.user_quiet hu).1 hm
      · exact hm.2 hu
    show (if x = a then v else s.w.mem x) = _
    rw [if_neg this]; rfl

theorem HInv.usable {pb : Nat} {s : CS σ} {L : List Block} {B : List (Nat × Nat)} {A : AHeap} {c : Ck} (H : HInv pb s L B A)
    (hc : A.Used c) : posixGetSize s.w.mem c.uptr = .ok (c.addr + c.size - c.uptr) := usable_used H.wf H.inv.mem hc

/-- The outcome of a valid `realloc` of a live block, in terms of its chunk. -/
theorem HInv.realloc {S : Source σ} {C : Config} {pb : Nat} {s : CS σ} {L : List Block} {B : List (Nat × Nat)} {A : AHeap}
    {b n : Nat} {c : Ck} (hf : C.reallocFactor ≠ 0) (H : HInv pb s L B A) (hc : A.Used c) (hn : n ≠ 0)
    (hv : ValidOp pb L B (.realloc c.uptr b n)) :
    ∃ h' r A', exec S C s (.realloc c.uptr b n) = .ok (s.setHeap h', r) ∧ ReallocRel pb C b A c n r A' ∧
      A'.WF pb ∧ MemOK (stdPool pb) h' A' ∧ (r = c.uptr → h' = s.heap) := by
  obtain ⟨hb, hsz, hp'⟩ := hv
  have hge := (H.wf.has_wf hc.1).ge
  have hup := H.wf.uptr_ge c
  obtain ⟨l, hl, g0, hcond⟩ := hp'.resolve_left (by omega)
  obtain ⟨d, hd, g1, g2, g3⟩ := H.live.used l hl
  obtain rfl : d = c := H.wf.uptr_inj hd.1 hc.1 (by rw [g1, g0])
  have hsafe : ReallocSafe d n := by
    rcases hcond with h | h | h
    · exact absurd h hn
    · exact reallocSafe_unpadded n (g3 h) (by omega)
    · unfold ReallocSafe; omega
  obtain ⟨r', A', hR, W', _, _, hs⟩ := realloc_ok S C H.wf hc hb hn (sizeOK_aligned H.wf H.bufs hsz) hf hsafe s.c.noMerge
  obtain ⟨h', e2, M, _, _, hk⟩ := hs s H.inv H.src rfl
  exact ⟨h', r', A', e2, hR, W', M, hk⟩

theorem ReallocRel.moved {pb : Nat} {C : Config} {A A' : AHeap} {c : Ck} {b n r : Nat} (W : A.WF pb) (hc : A.Used c)
    (R : ReallocRel pb C b A c n r A') : (ReallocKeep C c n ∧ r = c.uptr ∧ A' = A) ∨ (¬ ReallocKeep C c n ∧ r ≠ c.uptr) := by
  cases R with
  | keep hk => exact Or.inl ⟨hk, rfl, rfl⟩
  | fail hk _ _ =>
    refine Or.inr ⟨hk, ?_⟩
    have := W.uptr_ge c
    omega
  | @move A1 A' c0 d hk G RF hne =>
    refine Or.inr ⟨hk, fun h => ?_⟩
    have hd := (G.used d).2 (Or.inr rfl)
    have hc1 := (G.used c).2 (Or.inl hc)
    exact G.fresh (G.wf.uptr_inj hd.1 hc1.1 h ▸ hc)

/-- What an allocation leaves in its block beyond the size asked for. -/
theorem GotRel.slack {pb : Nat} {A A' : AHeap} {b n : Nat} {c d : Ck} (G : GotRel pb A b n c d A') (hb : b ≤ 1)
    (hn : n + 16 < W64) :
    n ≤ d.addr + d.size - d.uptr ∧ d.addr + d.size - d.uptr ≤ max (round16 n) 16 + 16 := by
  have hp := G.ptr
  rw [if_pos (Or.inl hb)] at hp
  have hfit := G.fit
  have ht := G.tight
  have hd := (G.used d).2 (Or.inr rfl)
  have hm := (G.wf.has_wf hd.1).dvd
  unfold cutSize alignedSize at ht
  rw [if_neg (by omega), calc_eq hn] at ht
  unfold round16
  omega

theorem sizeOK_lt {B : List (Nat × Nat)} {b n : Nat} (h : SizeOK B b n) : n + 16 < W64 := by
  unfold SizeOK at h
  omega

/-- The chunk of a block and its usable size do not change, along any run of calls that do not free or resize the block. -/
theorem run_used {S : Source σ} {C : Config} {pb : Nat} (hf : C.reallocFactor ≠ 0) {s s' : CS σ} {L L' : List Block}
    {B B' : List (Nat × Nat)} {ops : List Op} {rs : List Nat} {l : Block} (h : Reach S C pb s L B) (hl : l ∈ L)
    (R : Run S C pb s L B ops rs s' L' B') (hno : ∀ op ∈ ops, op.target ≠ l.ptr) :
    (Reach S C pb s' L' B' ∧ getChunkUnpadded s'.w.mem l.ptr = getChunkUnpadded s.w.mem l.ptr) ∧ l ∈ L' ∧
      posixGetSize s'.w.mem l.ptr = posixGetSize s.w.mem l.ptr := by
  induction R with
  | nil => exact ⟨⟨h, rfl⟩, hl, rfl⟩
  | @cons s s1 s2 L L2 B B2 op ops r rs hv hreg e _ ih =>
    have h1 := Reach.step h hv hreg e
    have hne := hno op (by simp)
    obtain ⟨A, H⟩ := reach_inv hf h
    obtain ⟨c, hc, g1, _⟩ := H.live.used l hl
    obtain ⟨A', W', M', hu⟩ := exec_used hf H hv hreg e
    have hc' := hu c hc (by rw [g1]; exact fun h => hne h.symm)
    have e1 := H.usable hc
    have e3 : getChunkUnpadded s.w.mem c.uptr = _ := (getChunkUnpadded_used H.wf H.inv.mem hc).1
    have e4 : getChunkUnpadded s1.w.mem c.uptr = _ := (getChunkUnpadded_used W' M' hc').1
    have e2 : posixGetSize s1.w.mem c.uptr = _ := usable_used W' M' hc'
    have hl' : l ∈ account L op r := by
      cases op with
      | alloc b n =>
        simp only [account]
        split
        · exact hl
        · exact List.mem_cons_of_mem _ hl
      | free p =>
        simp only [account, List.mem_filter, decide_eq_true_eq]
        exact ⟨hl, fun h => hne h.symm⟩
      | realloc p b n =>
        have hne' : l.ptr ≠ p := fun h => hne h.symm
        simp only [account]
        split
        · split
          · exact hl
          · exact List.mem_cons_of_mem _ hl
        · split
          · simp only [List.mem_filter, decide_eq_true_eq]; exact ⟨hl, hne'⟩
          · split
            · refine List.mem_map.2 ⟨l, hl, if_neg hne'⟩
            · refine List.mem_cons_of_mem _ ?_
              simp only [List.mem_filter, decide_eq_true_eq]; exact ⟨hl, hne'⟩
      | refill b z => exact hl
      | write a v => exact hl
    obtain ⟨⟨i1, i4⟩, i2, i3⟩ := ih h1 hl' (fun o ho => hno o (List.mem_cons_of_mem _ ho))
    refine ⟨⟨i1, i4.trans ?_⟩, i2, i3.trans ?_⟩
    · rw [← g1, e3, e4]
    · rw [← g1, e1, e2]

/-! ### C76 -/

/-- C76: a live block is in a used chunk of `z` bytes; `realloc` to `n` bytes returns the same address, and then changes
nothing at all, exactly if `n` fits in the `z - 16` bytes of this chunk and does not leave more of them unused than the
threshold and the `factor`-th part. For a block obtained without boundary `z - 16` is the usable size. -/
theorem C76_rule {S : Source σ} {C : Config} {pb : Nat} {s : CS σ} {L : List Block} {B : List (Nat × Nat)} {l : Block}
    {b n : Nat} (hf : C.reallocFactor ≠ 0) (h : Reach S C pb s L B) (hl : l ∈ L) (hn : n ≠ 0)
    (hv : ValidOp pb L B (.realloc l.ptr b n)) :
    ∃ y ∈ B, ∃ ch a z, BufChunks s.w.mem y.1 y.2 ch ∧ (a, z, false) ∈ ch ∧ a + 16 ≤ l.ptr ∧ l.ptr + l.len ≤ a + z ∧
      (l.plain = true → posixGetSize s.w.mem l.ptr = .ok (z - 16)) ∧
      ∃ s' r, exec S C s (.realloc l.ptr b n) = .ok (s', r) ∧
        (Stays C (z - 16) n → r = l.ptr ∧ s' = s) ∧ (¬ Stays C (z - 16) n → r ≠ l.ptr) := by
  obtain ⟨A, H⟩ := reach_inv hf h
  obtain ⟨c, hc, hp, hfit, hpl⟩ := H.live.used l hl
  have hge := H.wf.uptr_ge c
  have hsz := (H.wf.has_wf hc.1).ge
  obtain ⟨g, hg, hcg⟩ := hc.1
  obtain ⟨g', hg', e1, e2, hch⟩ := H.seg (H.segOf hg)
  have hgg : g' = g := by
    by_contra hne
    have := H.wf.seg_disj hg' hg hne
    have := (H.wf.seg g hg).ge
    simp only at e1 e2
    omega
  subst hgg
  refine ⟨_, H.segOf hg, _, c.addr, c.size, hch, List.mem_map.2 ⟨c, hcg, ?_⟩, by omega, by omega, ?_, ?_⟩
  · obtain ⟨p, hp⟩ := hc.2
    simp [Ck.view, hp]
  · intro hplain
    have e := H.usable hc
    have hu : c.uptr = c.addr + 16 := by unfold Ck.uptr Ck.off; rw [hpl hplain]
    rw [hu] at e hp
    rw [← hp, e]
    congr 1
    omega
  · rw [← hp] at hv ⊢
    obtain ⟨h', r, A', e, R, _, _, hk⟩ := H.realloc (S := S) hf hc hn hv
    refine ⟨_, r, e, ?_⟩
    rcases R.moved H.wf hc with ⟨k1, k2, k3⟩ | ⟨k1, k2⟩
    · refine ⟨fun _ => ⟨k2, ?_⟩, fun hno => absurd k1 hno⟩
      rw [hk k2]; rfl
    · exact ⟨fun hy => absurd hy k1, fun _ => k2⟩

/-- C76: the usable size of a block is a constant: no call on other blocks, no refill and no store of the client changes
it. -/
theorem C76_usable_constant {S : Source σ} {C : Config} {pb : Nat} (hf : C.reallocFactor ≠ 0) {s s' : CS σ}
    {L L' : List Block} {B B' : List (Nat × Nat)} {ops : List Op} {rs : List Nat} {l : Block} (h : Reach S C pb s L B)
    (hl : l ∈ L) (R : Run S C pb s L B ops rs s' L' B') (hno : ∀ op ∈ ops, op.target ≠ l.ptr) :
    l ∈ L' ∧ posixGetSize s'.w.mem l.ptr = posixGetSize s.w.mem l.ptr := (run_used hf h hl R hno).2

/-- C76: a block obtained without boundary has at most 16 usable bytes more than its size rounded up to 16 (never less
than 16), whether it comes from an allocation or from a `realloc` that moved it. -/
theorem C76_slack {S : Source σ} {C : Config} {pb : Nat} {s s' : CS σ} {L : List Block} {B : List (Nat × Nat)} {op : Op}
    {b n r : Nat} (hf : C.reallocFactor ≠ 0) (h : Reach S C pb s L B) (hv : ValidOp pb L B op) (hb : b ≤ 1) (hr : r ≠ 0)
    (hop : op = .alloc b n ∨ ∃ p, r ≠ p ∧ op = .realloc p b n) (e : exec S C s op = .ok (s', r)) :
    ∃ k, posixGetSize s'.w.mem r = .ok k ∧ n ≤ k ∧ k ≤ max (round16 n) 16 + 16 := by
  obtain ⟨A, H⟩ := reach_inv hf h
  have hal : ∀ (e : allocAlign S s b n = .ok (s', r)) (_ : GoodBound b) (_ : SizeOK B b n),
      ∃ k, posixGetSize s'.w.mem r = .ok k ∧ n ≤ k ∧ k ≤ max (round16 n) 16 + 16 := by
    intro e hg hsz
    obtain ⟨A', hR, H', _⟩ := H.alloc S hg hsz e
    rcases hR with ⟨h0, _⟩ | ⟨c, d, G, rfl, _⟩
    · exact absurd h0 hr
    · exact ⟨_, H'.usable ((G.used d).2 (Or.inr rfl)), G.slack hb (sizeOK_lt hsz)⟩
  rcases hop with rfl | ⟨p, hrp, rfl⟩
  · exact hal e hv.1 hv.2
  · by_cases hp : p = 0
    · subst hp
      refine hal ?_ hv.1 hv.2.1
      rw [← e]; exact (chainRealloc_null S C b s n H.inv.dead).symm
    · have hn : n ≠ 0 := by
        rintro rfl
        simp only [exec] at e
        rw [chainRealloc_zero S C b s hp] at e
        obtain ⟨x, _, h2⟩ := Outcome.bind_eq_ok e
        exact hr (Prod.mk.inj (Outcome.ok.inj h2)).2.symm
      obtain ⟨l, hl, rfl, _⟩ := hv.2.2.resolve_left hp
      obtain ⟨c, hc, g1, _⟩ := H.live.used l hl
      have hsz := hv.2.1
      rw [← g1] at hv e hrp
      obtain ⟨h', r', A', e1, R, W', M, hk⟩ := H.realloc (S := S) hf hc hn hv
      rw [e] at e1
      obtain ⟨rfl, rfl⟩ := Prod.mk.inj (Outcome.ok.inj e1)
      cases R with
      | keep _ => exact absurd rfl hrp
      | fail _ _ _ => exact absurd rfl hr
      | @move A1 A' c0 d hk G RF hne =>
        have hdc : d ≠ c := by rintro rfl; exact hrp rfl
        have hd := (RF.used d).2 ⟨(G.used d).2 (Or.inr rfl), hdc⟩
        exact ⟨_, usable_used W' M hd, G.slack hb (sizeOK_lt hsz)⟩

/-- C76, for 16 bytes and for 24 bytes or more, with the default parameters: a block obtained with `n` bytes and no
boundary is left alone by a `realloc` to `n` bytes, at any later time. -/
theorem C76_same_size_partial {S : Source σ} {pb : Nat} {s s1 s2 : CS σ} {L L2 : List Block} {B B2 : List (Nat × Nat)}
    {op : Op} {b b' n r : Nat} {ops : List Op} {rs : List Nat} (h : Reach S Config.default pb s L B)
    (hv : ValidOp pb L B op) (hreg : RegOK s op) (hb : b ≤ 1) (hn : n = 16 ∨ 24 ≤ n) (hr : r ≠ 0)
    (hop : op = .alloc b n ∨ ∃ p, r ≠ p ∧ op = .realloc p b n) (e : exec S Config.default s op = .ok (s1, r))
    (R : Run S Config.default pb s1 (account L op r) (accountBufs B op) ops rs s2 L2 B2)
    (hno : ∀ o ∈ ops, o.target ≠ r) (hv' : ValidOp pb L2 B2 (.realloc r b' n)) :
    exec S Config.default s2 (.realloc r b' n) = .ok (s2, r) := by
  have h1 := Reach.step h hv hreg e
  obtain ⟨k, hk, hk1, hk2⟩ := C76_slack default_factor h hv hb hr hop e
  have hmem : (⟨r, n, true⟩ : Block) ∈ account L op r := by
    have hd : decide (b ≤ 1) = true := decide_eq_true hb
    rcases hop with rfl | ⟨p, hrp, rfl⟩
    · simp only [account, if_neg hr, hd]; exact List.mem_cons_self
    · simp only [account, if_neg hr, if_neg hrp, hd]
      split <;> exact List.mem_cons_self
  obtain ⟨⟨h2, _⟩, hl2, hk3⟩ := run_used default_factor h1 hmem R hno
  obtain ⟨y, hy, ch, a, z, _, _, _, _, hz, s', r', e', hs, _⟩ := C76_rule (b := b') default_factor h2 hl2 (by omega) hv'
  have hz' := hz rfl
  rw [hk3, hk] at hz'
  have hkz : k = z - 16 := Outcome.ok.inj hz'
  rw [← hkz] at hs
  have hst : Stays Config.default k n := by
    unfold round16 at hk2
    refine ⟨hk1, ?_, ?_⟩
    · simp only [Config.default]; omega
    · simp only [Config.default]; omega
  obtain ⟨q1, q2⟩ := hs hst
  rw [e', q1, q2]

/-- The only block of a chain is moved by `realloc`, and there is no memory for it elsewhere. -/
theorem OneBlock.realloc_null {X sz n n' : Nat} {s0 s : CS Unit} {A0 A : AHeap} {d : Ck} (O : OneBlock X sz 0 n s0 s A0 A d)
    (hn : n' ≠ 0) (hsz : n' + 16 < W63) (hk : ¬ Stays Config.default (d.size - 16) n')
    (hno : d.size < sz - 48 → sz - 48 - d.size < n' + 16) :
    ∃ s', exec S0 Config.default s (.realloc d.uptr 0 n') = .ok (s', 0) ∧ Reach S0 Config.default 4096 s' [] [(X, sz)] := by
  have hv : ValidOp 4096 [⟨d.uptr, n, decide (0 ≤ 1)⟩] [(X, sz)] (.realloc d.uptr 0 n') :=
    ⟨Or.inl (by omega), Or.inl (by simp; omega), Or.inr ⟨_, List.mem_singleton.2 rfl, rfl, Or.inr (Or.inl (by simp))⟩⟩
  obtain ⟨h', r, A', e, R, _, _, _⟩ := O.inv.realloc (S := S0) default_factor O.used hn hv
  have hge := O.inv.wf.uptr_ge d
  have hr : r = 0 := by
    cases R with
    | keep h => exact absurd h hk
    | fail _ _ _ => rfl
    | @move A1 A' c0 d' _ G _ _ =>
      exfalso
      obtain ⟨q1, q2⟩ := (O.free G.free).1 G.has
      have h1 := G.min
      have h2 := G.le
      have h3 := hno q1
      rw [q2] at h2
      simp only at h2
      unfold alignedSize at h1
      rw [if_neg (by omega), calc_eq (by omega)] at h1
      omega
  subst hr
  have R' := O.reach.step hv trivial e
  refine ⟨_, e, ?_⟩
  have hz : account [(⟨d.uptr, n, decide (0 ≤ 1)⟩ : Block)] (.realloc d.uptr 0 n') 0 = [] := by
    simp only [account]
    rw [if_neg (by omega), if_pos trivial]
    simp
  rw [hz] at R'
  exact R'

/-- The sizes left out of `C76_same_size_partial` have to be: for each of them there is a chain whose only block is
`n` bytes long, and `realloc` of this block to `n` bytes frees it and returns NULL. -/
theorem C76_same_size_refuted {n : Nat} (h0 : 0 < n) (h1 : n < 24) (h2 : n ≠ 16) :
    ∃ (B : List (Nat × Nat)) (s s' : CS Unit) (l : Block), Reach S0 Config.default 4096 s [l] B ∧ l.len = n ∧
      l.plain = true ∧ exec S0 Config.default s (.realloc l.ptr 0 n) = .ok (s', 0) ∧
      Reach S0 Config.default 4096 s' [] B := by
  have key : ∀ sz, sz = (if n ≤ 16 then 96 else 112) → ∃ (s s' : CS Unit) (l : Block),
      Reach S0 Config.default 4096 s [l] [(8192, sz)] ∧ l.len = n ∧
      l.plain = true ∧ exec S0 Config.default s (.realloc l.ptr 0 n) = .ok (s', 0) ∧
      Reach S0 Config.default 4096 s' [] [(8192, sz)] := by
    intro sz hsz
    have hr : 16 ∣ sz ∧ 96 ≤ sz ∧ sz ≤ 112 ∧ n + 64 ≤ sz := by split at hsz <;> omega
    obtain ⟨s0, s, A0, A, d, O⟩ := one_block (X := 8192) (sz := sz) (b := 0) (n := n)
      ⟨by omega, by omega, by omega, by omega, by omega, by omega⟩ (Or.inl (by omega)) (by omega) (by simp; omega) (by omega)
    have hle := O.got.le
    have ht := O.got.tight
    simp only at hle
    have hd : d.size = sz - 48 := by
      rcases O.got.lists with ⟨h, _⟩ | ⟨h, j, hj, _⟩
      · exact h
      · exfalso
        have hm := O.got.min
        have hdv := (O.inv.wf.has_wf O.used.1).dvd
        simp only at h hj
        unfold alignedSize at hm
        rw [if_neg (by omega), calc_eq (by omega)] at hm
        rcases hj with ⟨_, _, h3, _⟩ | ⟨h3, _⟩
        · have h5 : clsSize 0 ≤ clsSize j := clsSize_mono (Nat.zero_le j)
          have h6 : clsSize j = ftbl j := rfl
          have h7 : clsSize 0 = 32 := rfl
          split at hsz <;> omega
        · omega
    obtain ⟨s', e, R'⟩ := O.realloc_null (n' := n) (by omega) (by omega) (by
      rw [hd]
      rintro ⟨_, _, h3⟩
      simp only [Config.default] at h3
      split at hsz <;> omega) (by omega)
    exact ⟨s, s', _, O.reach, rfl, by simp, e, R'⟩
  obtain ⟨s, s', l, h⟩ := key _ rfl
  exact ⟨_, s, s', l, h⟩

/-- `realloc` never extends a block into the free chunk behind it: a block of 2000 bytes is alone in a buffer of 4096
bytes, everything behind it is free, and making it 3000 bytes long fails (and frees it). -/
theorem C76_grow_refuted : ∃ (s s' : CS Unit) (l : Block), Reach S0 Config.default 4096 s [l] [(8192, 4096)] ∧
    l.len = 2000 ∧ l.ptr = 8192 + 48 ∧ exec S0 Config.default s (.realloc l.ptr 0 3000) = .ok (s', 0) ∧
    Reach S0 Config.default 4096 s' [] [(8192, 4096)] := by
  obtain ⟨s0, s, A0, A, d, O⟩ := one_block (X := 8192) (sz := 4096) (b := 0) (n := 2000)
    ⟨by omega, by omega, by omega, by omega, by omega, by omega⟩ (Or.inl (by omega)) (by omega) (by simp) (by omega)
  have ht := O.got.tight
  have hm := O.got.min
  have hp := O.got.ptr
  have ha := O.got.addr
  unfold cutSize at ht
  unfold alignedSize at ht hm
  rw [if_neg (by omega), calc_eq (by omega)] at ht hm
  rw [if_pos (Or.inl (by omega))] at hp
  simp only at ha
  obtain ⟨s', e, R'⟩ := O.realloc_null (n' := 3000) (by omega) (by omega) (by
    rintro ⟨h3, _, _⟩
    omega) (by omega)
  exact ⟨s, s', _, O.reach, rfl, by simp only; omega, e, R'⟩

/-! ### Examples -/

/-- The hypotheses of the theorems are met: a block of 1000 bytes keeps its place when it is made 1000, 1001 or 600 bytes
long, and moves when it is made 400 bytes long. -/
example : ∃ (s : CS Unit) (l : Block) (k : Nat), Reach S0 Config.default 4096 s [l] [(8192, 4096)] ∧
    ValidOp 4096 [l] [(8192, 4096)] (.realloc l.ptr 0 400) ∧ posixGetSize s.w.mem l.ptr = .ok k ∧
    Stays Config.default k 1000 ∧ Stays Config.default k 1001 ∧ Stays Config.default k 600 ∧ ¬ Stays Config.default k 400 := by
  obtain ⟨s0, s, A0, A, d, O⟩ := one_block (X := 8192) (sz := 4096) (b := 0) (n := 1000)
    ⟨by omega, by omega, by omega, by omega, by omega, by omega⟩ (Or.inl (by omega)) (by omega) (by simp) (by omega)
  have hu := O.inv.usable O.used
  have hp := O.got.ptr
  have hm := O.got.min
  have ht := O.got.tight
  have hdv := (O.inv.wf.has_wf O.used.1).dvd
  rw [if_pos (Or.inl (by omega))] at hp
  unfold cutSize at ht
  unfold alignedSize at ht hm
  rw [if_neg (by omega), calc_eq (by omega)] at ht hm
  refine ⟨s, _, _, O.reach, ⟨Or.inl (by omega), Or.inl (by simp), Or.inr ⟨_, List.mem_singleton.2 rfl, rfl,
    Or.inr (Or.inl (by simp))⟩⟩, hu, ?_, ?_, ?_, ?_⟩
  · refine ⟨by omega, ?_, ?_⟩ <;> simp only [Config.default] <;> omega
  · refine ⟨by omega, ?_, ?_⟩ <;> simp only [Config.default] <;> omega
  · refine ⟨by omega, ?_, ?_⟩ <;> simp only [Config.default] <;> omega
  · rintro ⟨_, _, h3⟩
    simp only [Config.default] at h3
    omega

/-- A block of 100 bytes, then a second block and a store: the first block is left alone by a `realloc` to 100 bytes. -/
example : ∃ (s s1 s2 : CS Unit) (p q : Nat) (L2 : List Block),
    Reach S0 Config.default 4096 s [] [(8192, 4096)] ∧ exec S0 Config.default s (.alloc 0 100) = .ok (s1, p) ∧ p ≠ 0 ∧
    Run S0 Config.default 4096 s1 [⟨p, 100, true⟩] [(8192, 4096)] [.alloc 0 200, .write p 7] [q, 0] s2 L2 [(8192, 4096)] ∧
    q ≠ 0 ∧ exec S0 Config.default s2 (.realloc p 0 100) = .ok (s2, p) := by
  obtain ⟨s0, s, A0, A, d, O⟩ := one_block (X := 8192) (sz := 4096) (b := 0) (n := 100)
    ⟨by omega, by omega, by omega, by omega, by omega, by omega⟩ (Or.inl (by omega)) (by omega) (by simp) (by omega)
  have hge := O.inv.wf.uptr_ge d
  have hsz := O.size (by simp)
  simp at hsz
  obtain ⟨s2, A2, d2, e2, _, hne, _, _, _⟩ := O.second (b' := 0) (n' := 200) (Or.inl (by omega)) (by omega) (by omega)
    (by simp; omega)
  have hacc : account [(⟨d.uptr, 100, true⟩ : Block)] (.alloc 0 200) d2.uptr = [⟨d2.uptr, 200, true⟩, ⟨d.uptr, 100, true⟩] := by
    simp [account, hne]
  obtain ⟨s3, hrun⟩ : ∃ s3, Run S0 Config.default 4096 s [⟨d.uptr, 100, true⟩] [(8192, 4096)] [.alloc 0 200, .write d.uptr 7]
      [d2.uptr, 0] s3 [⟨d2.uptr, 200, true⟩, ⟨d.uptr, 100, true⟩] [(8192, 4096)] := by
    refine ⟨s2.setMem (fun x => if x = d.uptr then 7 else s2.w.mem x), Run.cons ⟨Or.inl (by omega), Or.inl (by simp)⟩ trivial e2 ?_⟩
    rw [hacc]
    refine Run.cons ⟨⟨d.uptr, 100, true⟩, by simp, ?_⟩ trivial rfl Run.nil
    unfold Block.Byte
    simp only
    omega
  refine ⟨s0, s, s3, d.uptr, d2.uptr, _, O.reach0, O.call, by omega, hrun, hne, ?_⟩
  have hv : ValidOp 4096 [] [(8192, 4096)] (.alloc 0 100) := ⟨Or.inl (by omega), Or.inl (by simp)⟩
  have ha : account [] (.alloc 0 100) d.uptr = [(⟨d.uptr, 100, true⟩ : Block)] := by
    simp only [account]
    rw [if_neg (by omega)]
    rfl
  refine C76_same_size_partial (b := 0) (n := 100) O.reach0 hv trivial (by omega) (by omega) (by omega) (Or.inl rfl) O.call
    (ops := [.alloc 0 200, .write d.uptr 7]) (rs := [d2.uptr, 0]) (by rw [ha]; exact hrun) ?_ ?_
  · intro o ho
    simp only [List.mem_cons, List.not_mem_nil, or_false] at ho
    rcases ho with rfl | rfl <;> simp only [Op.target] <;> omega
  · exact ⟨Or.inl (by omega), Or.inl (by simp), Or.inr ⟨⟨d.uptr, 100, true⟩, by simp, rfl, Or.inr (Or.inl rfl)⟩⟩

end MpcAlloc
