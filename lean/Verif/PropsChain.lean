import Verif.Samples
import Verif.Posix

/-
Properties C01 to C09 of a chain over user supplied buffers. `Reach S C pb s L B` (Spec.lean): state `s` is
reached by a history of valid calls and client writes, `L` are the live blocks and `B` the buffers.
-/

namespace MpcAlloc

variable {σ : Type}

/-! ### C01 -/

/-- C01, for the sizes and reallocations allowed by `ValidOp`: the live blocks are pairwise disjoint. -/
theorem C01_live_blocks_disjoint_partial {S : Source σ} {C : Config} {pb : Nat} {s : CS σ} {L : List Block}
    {B : List (Nat × Nat)} (hf : C.reallocFactor ≠ 0) (h : Reach S C pb s L B) : L.Pairwise Block.Disj := by
  obtain ⟨A, H⟩ := reach_inv hf h
  have hn := H.live.nodup
  rw [List.Nodup, List.pairwise_map] at hn
  refine hn.imp_of_mem ?_
  intro l l' hl hl' hne x ⟨hx, hx'⟩
  obtain ⟨c, hc, e, _⟩ := H.live.used l hl
  rw [← e] at hne
  have := other_block H.wf H.live hc hl' (Ne.symm hne) hx'
  obtain ⟨c', hc', e', f', _⟩ := H.live.used l hl
  have hcc : c' = c := H.wf.uptr_inj hc'.1 hc.1 (by omega)
  subst hcc
  have := H.wf.uptr_ge c'
  unfold Block.Byte at hx
  omega

/-- Met by a chain with two live blocks. -/
example : ∃ (s : CS Unit) (L : List Block), Reach S0 Config.default 4096 s L [(8192, 4096)] ∧ L.length = 2 ∧
    L.Pairwise Block.Disj := by
  obtain ⟨s, p, q, _, _, R, _⟩ := two_blocks
  exact ⟨s, _, R, rfl, C01_live_blocks_disjoint_partial default_factor R⟩

/-! ### C02 -/

/-- C02, first half, for valid calls: a live block is inside one buffer and outside of the list heads. -/
theorem C02_inside_buffers_partial {S : Source σ} {C : Config} {pb : Nat} {s : CS σ} {L : List Block}
    {B : List (Nat × Nat)} (hf : C.reallocFactor ≠ 0) (h : Reach S C pb s L B) {l : Block} (hl : l ∈ L) :
    (∃ y ∈ B, y.1 ≤ l.ptr ∧ l.ptr + l.len ≤ y.1 + y.2) ∧ ∀ x, l.Byte x → ¬ InHeads pb x := by
  obtain ⟨A, H⟩ := reach_inv hf h
  obtain ⟨c, hc, e, f, _⟩ := H.live.used l hl
  obtain ⟨g, hg, hcg⟩ := hc.1
  have hb := (H.wf.seg g hg).bounds hcg
  have := H.wf.uptr_ge c
  refine ⟨⟨_, H.segOf hg, by simp only; omega, by simp only; omega⟩, ?_⟩
  intro x hx hp
  have := H.wf.pool g hg
  unfold Block.Byte at hx
  unfold InHeads at hp
  omega

/-- Met by an aligned block of 200 bytes. -/
example : ∃ (s : CS Unit) (L : List Block) (l : Block), Reach S0 Config.default 4096 s L [(8192, 4096)] ∧ l ∈ L ∧
    l.len = 200 ∧ 8192 ≤ l.ptr ∧ l.ptr + 200 ≤ 12288 := by
  obtain ⟨s, p, q, _, _, R, _⟩ := two_blocks
  refine ⟨s, _, ⟨q, 200, false⟩, R, by simp, rfl, ?_⟩
  obtain ⟨⟨y, hy, h1, h2⟩, _⟩ := C02_inside_buffers_partial default_factor R (l := ⟨q, 200, false⟩) (by simp)
  rw [List.mem_singleton.1 hy] at h1 h2
  exact ⟨h1, h2⟩

/-- C02, second half, for valid calls: take any reachable state and any run from it. Change at will the data
inside the live blocks and the memory that is neither in the buffers nor in the list heads, and change the
values the client stores later: the same calls are again executed without error and return the same pointers. -/
theorem C02_noninterference_partial {S : Source σ} {C : Config} {pb : Nat} {s s' t : CS σ} {L L' : List Block}
    {B B' : List (Nat × Nat)} {ops ops' : List Op} {rs : List Nat} (hf : C.reallocFactor ≠ 0)
    (h : Reach S C pb s L B) (hr : Run S C pb s L B ops rs s' L' B') (ht : SameBut pb L B s t)
    (ho : List.Forall₂ SameCall ops ops') : ∃ t', Run S C pb t L B ops' rs t' L' B' := by
  obtain ⟨A, H⟩ := reach_inv hf h
  exact run_sim hf hr H (H.sameBut ht) (by rw [ht.1]) (by rw [ht.1]) (by rw [ht.2.1]) ho

/-- Met by a run with an allocation and a store, in a state whose first block was overwritten. -/
example : ∃ (s t : CS Unit) (L : List Block) (p r : Nat) (s' : CS Unit) (L' : List Block),
    Reach S0 Config.default 4096 s L [(8192, 4096)] ∧
    Run S0 Config.default 4096 s L [(8192, 4096)] [.alloc 0 24, .write p 1] [r, 0] s' L' [(8192, 4096)] ∧ r ≠ 0 ∧
    t.w.mem p = 77 ∧ SameBut 4096 L [(8192, 4096)] s t ∧
    List.Forall₂ SameCall [.alloc 0 24, .write p 1] [.alloc 0 24, .write p 2] := by
  obtain ⟨s0, s, A0, A, d, O⟩ := one_block (b := 0) (n := 100) sampleBuf_4096 (Or.inl (by omega)) (by omega)
    (by simp) (by omega)
  have hs := O.size (by simp)
  simp only [Nat.not_lt_zero, if_false] at hs
  obtain ⟨s', A', d', e', G, hne, R', H', g1⟩ := O.second (b' := 0) (n' := 24) (Or.inl (by omega)) (by omega)
    (by omega) (by simp; omega)
  refine ⟨s, s.setMem (fun x => if x = d.uptr then 77 else s.w.mem x), _, d.uptr, d'.uptr, _, _, O.reach,
    .cons ⟨Or.inl (by omega), Or.inl (by simp)⟩ trivial e' (.cons ?_ trivial rfl .nil), hne, by simp [CS.setMem],
    ⟨rfl, rfl, ?_⟩, .cons (.refl _) (.cons (.write _ _ _) .nil)⟩
  · refine ⟨⟨d.uptr, 100, true⟩, ?_, by simp [Block.Byte]⟩
    simp [account, if_neg hne]
  · intro x hx
    have hw := C02_inside_buffers_partial default_factor O.reach (l := ⟨d.uptr, 100, true⟩) (by simp)
    have : x ≠ d.uptr := by
      rintro rfl
      have hby : (⟨d.uptr, 100, true⟩ : Block).Byte d.uptr := by simp [Block.Byte]
      rcases hx with hx | ⟨_, hx⟩
      · exact hw.2 _ hby hx
      · exact hx _ (by simp) hby
    simp [CS.setMem, this]

/-! ### C03 -/

/-- C03, for sizes that do not overflow: the `n` bytes behind a returned pointer are inside one buffer and
inside one chunk marked as used, behind its header; they meet no other live block and no list head. -/
theorem C03_large_enough_partial {S : Source σ} {C : Config} {pb : Nat} {s s' : CS σ} {L : List Block}
    {B : List (Nat × Nat)} {b n r : Nat} (hf : C.reallocFactor ≠ 0) (h : Reach S C pb s L B) (hb : GoodBound b)
    (hsz : SizeOK B b n) (e : allocAlign S s b n = .ok (s', r)) (hr : r ≠ 0) :
    (∃ y ∈ B, ∃ l, BufChunks s'.w.mem y.1 y.2 l ∧ ∃ a sz, (a, sz, false) ∈ l ∧ y.1 + 32 ≤ a ∧ a + 16 ≤ r ∧
      r + n ≤ a + sz ∧ a + sz + 16 ≤ y.1 + y.2) ∧
    (∀ l ∈ L, ∀ x, r ≤ x → x < r + n → ¬ l.Byte x) ∧ (∀ x, r ≤ x → x < r + n → ¬ InHeads pb x) := by
  obtain ⟨A, H⟩ := reach_inv hf h
  obtain ⟨A', hA, H', _⟩ := H.alloc S hb hsz e
  have R' := h.step (op := .alloc b n) ⟨hb, hsz⟩ trivial e
  rcases hA with ⟨h0, _⟩ | ⟨c, d, G, rfl, _⟩
  · exact absurd h0 hr
  have hd := G.usedD
  obtain ⟨g, hg, hdg⟩ := hd.1
  have hbd := (H'.wf.seg g hg).bounds hdg
  have hge := (H'.wf.seg g hg).ge
  obtain ⟨g', hg', e1, e2, hch⟩ := H'.seg (H'.segOf hg)
  have hgg : g' = g := by
    by_contra hne
    have := H'.wf.seg_disj hg' hg hne
    simp only at e1 e2
    omega
  subst hgg
  have hmem : (⟨d.uptr, n, decide (b ≤ 1)⟩ : Block) ∈ account L (.alloc b n) d.uptr := by
    simp [account, if_neg hr]
  refine ⟨⟨_, H'.segOf hg, _, hch, d.addr, d.size, ?_, hbd.1, H'.wf.uptr_ge d, G.fit, by simp only; omega⟩, ?_, ?_⟩
  · refine List.mem_map.2 ⟨d, hdg, ?_⟩
    obtain ⟨p, hp⟩ := hd.2
    simp [Ck.view, hp]
  · intro l hl x h1 h2 hx
    have hp := C01_live_blocks_disjoint_partial hf R'
    simp only [account, if_neg hr, List.pairwise_cons] at hp
    exact hp.1 l hl x ⟨⟨h1, h2⟩, hx⟩
  · intro x h1 h2
    exact (C02_inside_buffers_partial hf R' hmem).2 x ⟨h1, h2⟩

/-- Met by an allocation of 100 bytes. -/
example : ∃ (s s' : CS Unit) (r : Nat), Reach S0 Config.default 4096 s [] [(8192, 4096)] ∧ GoodBound 0 ∧
    SizeOK [(8192, 4096)] 0 100 ∧ allocAlign S0 s 0 100 = .ok (s', r) ∧ r ≠ 0 := by
  obtain ⟨s0, s, A0, A, d, O⟩ := one_block (b := 0) (n := 100) sampleBuf_4096 (Or.inl (by omega)) (by omega)
    (by simp) (by omega)
  refine ⟨s0, s, _, O.reach0, Or.inl (by omega), Or.inl (by simp), O.call, ?_⟩
  have := O.inv.wf.uptr_ge d
  omega

/-! ### C04 -/

/-- C04, for valid calls: no byte of a block live before and after the call is changed by the allocator, and a
store of the client changes that byte only. -/
theorem C04_live_data_kept_partial {S : Source σ} {C : Config} {pb : Nat} {s s' : CS σ} {L : List Block}
    {B : List (Nat × Nat)} {op : Op} {r : Nat} (hf : C.reallocFactor ≠ 0) (h : Reach S C pb s L B)
    (hv : ValidOp pb L B op) (hr : RegOK s op) (e : exec S C s op = .ok (s', r)) :
    ((∀ a v, op ≠ .write a v) → ∀ l ∈ L, (∃ l' ∈ account L op r, l'.ptr = l.ptr) →
      ∀ x, l.Byte x → s'.w.mem x = s.w.mem x) ∧
    (∀ a v, op = .write a v → ∀ x, s'.w.mem x = if x = a then v else s.w.mem x) := by
  obtain ⟨A, H⟩ := reach_inv hf h
  obtain ⟨r', A', hs⟩ := step_ok S C hf H.wf H.bufs H.live hv _ H.noAdj
  obtain ⟨s1, e1, _, _, _, _, _, _, F⟩ := hs s H rfl hr
  rw [e] at e1
  cases e1
  exact ⟨F.live, F.write⟩

/-- Met by freeing one of two live blocks: the other one keeps its 100 bytes. -/
example : ∃ (s s' : CS Unit) (p : Nat), p ≠ 0 ∧ ∀ x, p ≤ x → x < p + 100 → s'.w.mem x = s.w.mem x := by
  obtain ⟨s, p, q, hp, hq, R, _⟩ := two_blocks
  have hpq : q ≠ p := by
    rintro rfl
    have := C01_live_blocks_disjoint_partial default_factor R
    simp only [List.pairwise_cons, List.mem_singleton, forall_eq] at this
    exact this.1 q ⟨by simp [Block.Byte], by simp [Block.Byte]⟩
  obtain ⟨A, H⟩ := reach_inv default_factor R
  have hov : ValidOp 4096 [⟨q, 200, false⟩, ⟨p, 100, true⟩] [(8192, 4096)] (.free q) := Or.inr ⟨_, List.mem_cons_self, rfl⟩
  obtain ⟨r, A1, hs⟩ := step_ok S0 Config.default default_factor H.wf H.bufs H.live hov _ H.noAdj
  obtain ⟨s', e', _⟩ := hs s H rfl trivial
  refine ⟨s, s', p, hp, fun x h1 h2 => ?_⟩
  exact (C04_live_data_kept_partial default_factor R hov trivial e').1 (by simp) ⟨p, 100, true⟩ (by simp)
    ⟨⟨p, 100, true⟩, by simp [account, Ne.symm hpq], rfl⟩ x ⟨h1, h2⟩

/-! ### C05 -/

/-- C05, for sizes that do not overflow: the pointer is a multiple of the boundary (of 16 without boundary), and
the requested size fits (with C03). -/
theorem C05_alignment_partial {S : Source σ} {C : Config} {pb : Nat} {s s' : CS σ} {L : List Block}
    {B : List (Nat × Nat)} {b n r : Nat} (hf : C.reallocFactor ≠ 0) (h : Reach S C pb s L B) (hb : GoodBound b)
    (hsz : SizeOK B b n) (e : allocAlign S s b n = .ok (s', r)) :
    (1 < b → b ∣ r) ∧ (b ≤ 1 → 16 ∣ r) := by
  obtain ⟨A, H⟩ := reach_inv hf h
  obtain ⟨A', hA, _⟩ := H.alloc S hb hsz e
  rcases hA with ⟨rfl, _⟩ | ⟨c, d, G, rfl, _⟩
  · simp
  · exact ⟨G.align, G.align16⟩

/-- Met by an allocation of 100 bytes aligned on 512 bytes. -/
example : ∃ (s s' : CS Unit) (r : Nat), Reach S0 Config.default 4096 s [] [(8192, 4096)] ∧ GoodBound 512 ∧
    SizeOK [(8192, 4096)] 512 100 ∧ allocAlign S0 s 512 100 = .ok (s', r) ∧ r ≠ 0 ∧ 512 ∣ r := by
  have hg : GoodBound 512 := Or.inr ⟨9, rfl⟩
  obtain ⟨s0, s, A0, A, d, O⟩ := one_block (b := 512) (n := 100) sampleBuf_4096 hg (by omega) (by simp) (by omega)
  refine ⟨s0, s, _, O.reach0, hg, Or.inl (by simp), O.call, ?_,
    (C05_alignment_partial default_factor O.reach0 hg (Or.inl (by simp)) O.call).1 (by omega)⟩
  have := O.inv.wf.uptr_ge d
  omega

/-! ### C06 -/

/-- C06, for valid calls (and buffers at free region entries if the chain registers its memory): the call ends
normally, writes only in the list heads and the buffers, and its result does not depend on any other memory. -/
theorem C06_valid_calls_succeed_partial {S : Source σ} {C : Config} {pb : Nat} {s : CS σ} {L : List Block}
    {B : List (Nat × Nat)} {op : Op} (hf : C.reallocFactor ≠ 0) (h : Reach S C pb s L B)
    (hv : ValidOp pb L B op) (hr : RegOK s op) :
    ∃ s' r, exec S C s op = .ok (s', r) ∧
      (∀ x, ¬ InHeads pb x → ¬ InBufs (accountBufs B op) x → s'.w.mem x = s.w.mem x) ∧
      ∀ t, SameBut pb L B s t → ∃ t', exec S C t op = .ok (t', r) := by
  obtain ⟨A, H⟩ := reach_inv hf h
  obtain ⟨r, A', hs⟩ := step_ok S C hf H.wf H.bufs H.live hv _ H.noAdj
  obtain ⟨s', e', _, _, _, _, _, _, F⟩ := hs s H rfl hr
  refine ⟨s', r, e', ?_, ?_⟩
  · intro x h1 h2
    exact F.out x h1 (fun y hy hx => h2 ⟨y, hy, hx⟩)
  · intro t ht
    have hr' : RegOK t op := by
      cases op with
      | refill b sz => unfold RegOK at hr ⊢; rw [ht.1, ht.2.1]; exact hr
      | _ => trivial
    obtain ⟨t', e'', _⟩ := hs t (H.sameBut ht) (by rw [ht.1]) hr'
    exact ⟨t', e''⟩

/-- Met by a realloc of a live block, with and without region registration being involved. -/
example : ∃ (s : CS Unit) (L : List Block) (p : Nat), Reach S0 Config.default 4096 s L [(8192, 4096)] ∧
    ValidOp 4096 L [(8192, 4096)] (.realloc p 0 1000) ∧ RegOK s (.realloc p 0 1000) ∧
    ValidOp 4096 L [(8192, 4096)] (.refill 65536 512) ∧
    ∃ s' r, exec S0 Config.default s (.realloc p 0 1000) = .ok (s', r) := by
  obtain ⟨s, p, q, hp, hq, R, _⟩ := two_blocks
  have hov : ValidOp 4096 [⟨q, 200, false⟩, ⟨p, 100, true⟩] [(8192, 4096)] (.realloc p 0 1000) :=
    ⟨Or.inl (by omega), Or.inl (by simp), Or.inr ⟨_, List.mem_cons_of_mem _ List.mem_cons_self, rfl, Or.inr (Or.inl rfl)⟩⟩
  obtain ⟨s', r, e, _⟩ := C06_valid_calls_succeed_partial default_factor R hov trivial
  refine ⟨s, _, p, R, hov, trivial, ?_, s', r, e⟩
  refine ⟨by omega, by omega, by omega, by omega, by omega, by omega, by omega, by simp⟩

/-! ### C07 -/

/-- C07, first part: without live block, each buffer is one free chunk between its bloc header and end mark. -/
theorem C07_one_free_chunk {S : Source σ} {C : Config} {pb : Nat} {s : CS σ} {B : List (Nat × Nat)}
    (hf : C.reallocFactor ≠ 0) (h : Reach S C pb s [] B) (hm : s.c.noMerge = false) {y : Nat × Nat} (hy : y ∈ B) :
    BufChunks s.w.mem y.1 y.2 [(y.1 + 32, y.2 - 48, true)] := by
  obtain ⟨A, H⟩ := reach_inv hf h
  obtain ⟨g, hg, e1, e2, hch⟩ := H.seg hy
  rw [H.empty_seg hm hg, e1, e2] at hch
  exact hch

/-- Met by a chain after an allocation and a free. -/
example : ∃ s : CS Unit, Reach S0 Config.default 4096 s [] [(8192, 4096)] ∧
    BufChunks s.w.mem 8192 4096 [(8224, 4048, true)] := by
  obtain ⟨s, R, hm⟩ := freed_block
  exact ⟨s, R, C07_one_free_chunk default_factor R hm (y := (8192, 4096)) (by simp)⟩

/-- C07, second part: a chain without live block that got a buffer reports that it can be destroyed. -/
theorem C07_can_destroy {S : Source σ} {C : Config} {pb : Nat} {s : CS σ} {B : List (Nat × Nat)}
    (hf : C.reallocFactor ≠ 0) (h : Reach S C pb s [] B) (hm : s.c.noMerge = false) (hB : B ≠ []) :
    canDestroy s = true := by
  obtain ⟨A, H⟩ := reach_inv hf h
  obtain ⟨g, hg, e1, e2⟩ := H.inv.base (H.based hB)
  have hw := H.wf.seg g hg
  have hlt := hw.lt
  have hge := hw.ge
  have hpos := hw.pos
  have hF : A.Has ⟨g.base + 32, g.size - 48, .free⟩ := ⟨g, hg, by rw [H.empty_seg hm hg]; simp⟩
  obtain ⟨p, hp⟩ := H.inv.mem.hdr hF
  have hsz := H.inv.mem.hsize H.wf hF
  have hst := infoState_hdr hp
  simp only [CkSt.num] at hsz hst
  have hsz' : hSize s.w.mem (g.base + 32) = g.size - 48 := hsz
  have hst' : infoState s.w.mem (g.base + 32 + 15) = 0 := hst
  unfold canDestroy
  rw [← e1, e2, add64_eq (by omega)]
  simp only []
  rw [hsz', add64_eq (a := g.size - 48) (by omega), add64_eq (by omega), sub64_eq (by omega) (by omega), hst']
  simp [SFREE]
  omega

example : ∃ s : CS Unit, Reach S0 Config.default 4096 s [] [(8192, 4096)] ∧ canDestroy s = true := by
  obtain ⟨s, R, hm⟩ := freed_block
  exact ⟨s, R, C07_can_destroy default_factor R hm (by simp)⟩

/-- C07, third part: the requests that can be served only depend on the buffers. If a request succeeds on a chain
without live block (for instance fresh), it succeeds on any other chain without live block with the same buffers. -/
theorem C07_capacity {S : Source σ} {C : Config} {pb : Nat} {s s' t t' : CS σ} {B : List (Nat × Nat)} {b n r r' : Nat}
    (hf : C.reallocFactor ≠ 0) (h : Reach S C pb s [] B) (h' : Reach S C pb t [] B) (hm : s.c.noMerge = false)
    (hm' : t.c.noMerge = false) (hb : GoodBound b) (hsz : SizeOK B b n)
    (e : allocAlign S s b n = .ok (s', r)) (e' : allocAlign S t b n = .ok (t', r')) (hr : r ≠ 0) : r' ≠ 0 := by
  obtain ⟨A, H⟩ := reach_inv hf h
  obtain ⟨A', H'⟩ := reach_inv hf h'
  obtain ⟨A1, hA, _⟩ := H.alloc S hb hsz e
  obtain ⟨A2, hA', _⟩ := H'.alloc S hb hsz e'
  rcases hA with ⟨h0, _⟩ | ⟨c, d, G, rfl, _⟩
  · exact absurd h0 hr
  rcases hA' with ⟨_, _, hno⟩ | ⟨_, _, _, _, hne⟩
  · exfalso
    have hn : n ≠ 0 := by
      rintro rfl
      unfold allocAlign at e
      rw [if_neg (by rw [H.inv.dead]; simp), if_pos rfl] at e
      exact hr (Prod.mk.inj (Outcome.ok.inj e)).2.symm
    obtain ⟨g, hg, hcg⟩ := G.has
    rw [H.empty_seg hm hg, List.mem_singleton] at hcg
    obtain ⟨g', hg', e1, e2, _⟩ := H'.seg (H.segOf hg)
    have hF : A'.Has c := by
      refine ⟨g', hg', ?_⟩
      rw [H'.empty_seg hm' hg', e1, e2, hcg]
      simp
    have := hno hn c hF G.free G.small
    have := G.min
    have := G.le
    omega
  · exact hne

/-- Met by a fresh chain and a chain after an allocation and a free, for the largest possible request. -/
example : ∃ (s s' t : CS Unit) (r : Nat), Reach S0 Config.default 4096 s [] [(8192, 4096)] ∧
    Reach S0 Config.default 4096 t [] [(8192, 4096)] ∧ s.c.noMerge = false ∧ t.c.noMerge = false ∧
    allocAlign S0 s 0 4032 = .ok (s', r) ∧ r ≠ 0 ∧ SizeOK [(8192, 4096)] 0 4032 := by
  obtain ⟨s0, s, A0, A, d, O⟩ := one_block (b := 0) (n := 4032) sampleBuf_4096 (Or.inl (by omega)) (by omega)
    (by simp) (by omega)
  obtain ⟨t, R, hm⟩ := freed_block
  refine ⟨s0, s, t, _, O.reach0, R, O.merge0, hm, O.call, ?_, Or.inl (by simp)⟩
  have := O.inv.wf.uptr_ge d
  omega

/-! ### C08 -/

/-- C08: with merging, walking the headers of a buffer never meets two free chunks in a row. -/
theorem C08_coalesced {S : Source σ} {C : Config} {pb : Nat} {s : CS σ} {L : List Block} {B : List (Nat × Nat)}
    (hf : C.reallocFactor ≠ 0) (h : Reach S C pb s L B) (hm : s.c.noMerge = false) {y : Nat × Nat} (hy : y ∈ B) :
    ∃ l, BufChunks s.w.mem y.1 y.2 l ∧ l.IsChain (fun c d => ¬ (c.2.2 = true ∧ d.2.2 = true)) := by
  obtain ⟨A, H⟩ := reach_inv hf h
  obtain ⟨g, hg, e1, e2, hch⟩ := H.seg hy
  refine ⟨_, hch, ?_⟩
  have := H.noAdj hm g hg
  rw [List.isChain_map]
  refine this.imp ?_
  intro c d hcd h
  apply hcd
  simpa [Ck.view] using h

example : ∃ (s : CS Unit) (L : List Block), Reach S0 Config.default 4096 s L [(8192, 4096)] ∧ L.length = 2 ∧
    s.c.noMerge = false := by
  obtain ⟨s, p, q, _, _, R, h⟩ := two_blocks
  exact ⟨s, _, R, rfl, h⟩

/-! ### C09 -/

/-- C09, for free chunks of at most 2 MB: if a free chunk can hold the request (with its header and the
boundary), the allocation succeeds. -/
theorem C09_alloc_succeeds_partial {S : Source σ} {C : Config} {pb : Nat} {s s' : CS σ} {L : List Block}
    {B : List (Nat × Nat)} {b n r : Nat} (hf : C.reallocFactor ≠ 0) (h : Reach S C pb s L B) (hb : GoodBound b)
    {y : Nat × Nat} (hy : y ∈ B) {l : List (Nat × Nat × Bool)} (hl : BufChunks s.w.mem y.1 y.2 l) {a sz : Nat}
    (hc : (a, sz, true) ∈ l) (hn : n ≠ 0) (hfit : n + (if 1 < b then b else 0) + 16 ≤ sz) (hmax : sz ≤ MB2)
    (e : allocAlign S s b n = .ok (s', r)) : r ≠ 0 := by
  obtain ⟨A, H⟩ := reach_inv hf h
  have hF := H.hasOf hy hl hc
  obtain ⟨A1, hA, _⟩ := H.alloc S hb (Or.inl (by omega)) e
  have hge := (H.wf.has_wf hF).ge
  simp only at hge
  rcases hA with ⟨_, _, hno⟩ | ⟨_, _, _, _, hne⟩
  · have h1 := hno hn _ hF rfl hmax
    have hal : alignedSize b n = n + (if 1 < b then b else 0) := by unfold alignedSize; split <;> omega
    rw [hal, calc_eq (by omega)] at h1
    simp only at h1
    omega
  · exact hne

/-- Met by the free chunk of a chain without live block. -/
example : ∃ s : CS Unit, Reach S0 Config.default 4096 s [] [(8192, 4096)] ∧
    BufChunks s.w.mem 8192 4096 [(8224, 4048, true)] ∧ 4000 + (if 1 < 32 then 32 else 0) + 16 ≤ 4048 := by
  obtain ⟨s, R, hm⟩ := freed_block
  exact ⟨s, R, C07_one_free_chunk default_factor R hm (y := (8192, 4096)) (by simp), by simp⟩

end MpcAlloc
