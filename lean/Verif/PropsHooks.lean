import Verif.HooksBlocs
import Verif.Samples

/-
Property C67: the build with hooks (Hooks.lean).
-/

namespace MpcAlloc.Hooks

variable {σ : Type}

/-- C67: whatever the state, the source and the hooks, a call that ends in the build with hooks ends in the same state and
returns the same pointer in the build without. -/
theorem C67_same {H : Tab} {S : Source σ} {C : Config} {s s' : CS σ} {op : Op} {r : Nat} {e : List Ev}
    (hb : opBound op + 8 ≤ W64) (h : execH H S C s op = .ok (s', r, e)) : exec S C s op = .ok (s', r) :=
  execH_er hb h

/-- C67: the same for the purge of the queue of the remote frees. -/
theorem C67_same_purge {H : Tab} {S : Source σ} {C : Config} {s s' : CS σ} {e : List Ev}
    (h : purgeRfqH H S C s = .ok (s', e)) : purgeRfq S C s = .ok s' :=
  purgeRfqH_er h

/-- C67, for valid calls on a chain over user buffers: the hooks add no failure. Any history can be run with any hooks, and
the histories with hooks are the histories without. -/
theorem C67_no_failure_partial (H : Tab) {S : Source σ} {C : Config} {pb : Nat} {s : CS σ} {L : List Block}
    {B : List (Nat × Nat)} (hf : C.reallocFactor ≠ 0) : Reach S C pb s L B ↔ ∃ T, TReach H S C pb s L B T :=
  ⟨Reach.trace H hf, fun ⟨_, h⟩ => h.reach⟩

/-- A chunk of a buffer: address, size, and whether it is free. -/
def IsChunk (m : Mem) (B : List (Nat × Nat)) (a z : Nat) (f : Bool) : Prop :=
  ∃ y ∈ B, ∃ l, BufChunks m y.1 y.2 l ∧ (a, z, f) ∈ l

theorem isChunk_of {pb : Nat} {s : CS σ} {L : List Block} {B : List (Nat × Nat)} {A : AHeap} (I : HInv pb s L B A) {c : Ck}
    (hc : A.Has c) : IsChunk s.w.mem B c.addr c.size (decide (c.st = .free)) := by
  obtain ⟨g, hg, hcg⟩ := hc
  exact ⟨_, I.segOf hg, _, I.chunksOf hg, List.mem_map.2 ⟨c, hcg, rfl⟩⟩

theorem chunkSize_of {pb : Nat} {s : CS σ} {L : List Block} {B : List (Nat × Nat)} {A : AHeap} (I : HInv pb s L B A) {c : Ck}
    (hc : A.Used c) : ChunkSize s.w.mem c.uptr c.size := by
  obtain ⟨g1, _, g3⟩ := getChunkUnpadded_used I.wf I.inv.mem hc
  exact ⟨_, g1, g3⟩

theorem used_not_free {A : AHeap} {c : Ck} (hc : A.Used c) : decide (c.st = .free) = false := by
  obtain ⟨_, p, hp⟩ := hc
  rw [hp]; rfl

/-- What an allocation of `n` bytes aligned on `b` on the chain at `addr` must send, from the memory before and after it: a free
chunk of `zf` bytes at `a` becomes a used chunk of `z` bytes around the block and, if it was larger, a free chunk of the rest, told
by the event of the split. Then comes the event of the allocation: its pointer is the one returned and its size the one of the
chunk. -/
def AllocTold (H : Tab) (addr : Nat) (m m' : Mem) (B : List (Nat × Nat)) (b n r : Nat) (e : List Ev) : Prop :=
  ∃ a z zf, IsChunk m B a zf true ∧ IsChunk m' B a z false ∧ (z < zf → IsChunk m' B (a + z) (zf - z) true) ∧
    a + 16 ≤ r ∧ r + n ≤ a + z ∧ ChunkSize m' r z ∧
    e = (if z < zf then emit H.split (.split addr a z (zf - z)) else []) ++
      emit H.alloc (.alloc addr (if 1 < b then n + b else n) r z b)

theorem told_alloc {H : Tab} {pb : Nat} {s s' : CS σ} {L L' : List Block} {B : List (Nat × Nat)} {A A' : AHeap} {addr b n r : Nat}
    {e : List Ev} (I : HInv pb s L B A) (I' : HInv pb s' L' B A') (E : AllocEv H addr pb A b n r A' e) :
    (r = 0 → e = []) ∧ (r ≠ 0 → AllocTold H addr s.w.mem s'.w.mem B b n r e) := by
  rcases E with ⟨h0, _, rfl⟩ | ⟨c, d, G, hu, hne, rfl⟩
  · exact ⟨fun _ => rfl, fun h => absurd h0 h⟩
  · refine ⟨fun h => absurd h hne, fun _ => ⟨d.addr, d.size, c.size, ?_, ?_, ?_, ?_, ?_, ?_, ?_⟩⟩
    · have := isChunk_of I G.has
      rw [G.free, ← G.addr] at this
      exact this
    · have := isChunk_of I' G.usedD.1
      rw [used_not_free G.usedD] at this
      exact this
    · intro h
      have := isChunk_of I' ((G.rest ⟨c.addr + d.size, c.size - d.size, .free⟩ rfl).2 (Or.inr ⟨h, rfl⟩))
      rw [G.addr]
      exact this
    · rw [← hu]; exact I'.wf.uptr_ge d
    · rw [← hu]; exact G.fit
    · rw [← hu]; exact chunkSize_of I' G.usedD
    · unfold splitEv alignedSize
      rw [G.addr]

/-- C67, for valid calls on a chain over user buffers: an allocation sends nothing if it fails, and else exactly the event of
its split, if any, and its own. -/
theorem C67_alloc_partial (H : Tab) {S : Source σ} {C : Config} {pb : Nat} {s : CS σ} {L : List Block}
    {B : List (Nat × Nat)} (hf : C.reallocFactor ≠ 0) (h : Reach S C pb s L B) {b n : Nat} (hv : ValidOp pb L B (.alloc b n)) :
    ∃ s' r e, execH H S C s (.alloc b n) = .ok (s', r, e) ∧ (r = 0 → e = []) ∧
      (r ≠ 0 → AllocTold H s.c.addr s.w.mem s'.w.mem B b n r e) := by
  obtain ⟨A, I⟩ := reach_inv hf h
  obtain ⟨s', r, e, A', e1, I', _, _, E⟩ := stepH H S C hf I hv trivial
  exact ⟨s', r, e, e1, told_alloc I I' E⟩

/-- What the free of the block `p` must send, from the memory before and after it: the event of the free, with the size of the
chunk of the block, and, if this chunk was merged into a larger free one, the event of the merge with this chunk. -/
def FreeTold (H : Tab) (addr : Nat) (nm : Bool) (m m' : Mem) (B : List (Nat × Nat)) (p : Nat) (e : List Ev) : Prop :=
  ∃ z a z', ChunkSize m p z ∧ IsChunk m' B a z' true ∧ a + 16 ≤ p ∧ p ≤ a + z' ∧ z ≤ z' ∧ (nm = true → z' = z) ∧
    e = emit H.free (.free addr p z) ++ (if z' ≠ z then emit H.merge (.merge addr a z') else [])

theorem told_free {H : Tab} {pb : Nat} {nm : Bool} {s s' : CS σ} {L L' : List Block} {B : List (Nat × Nat)} {A A' : AHeap} {addr : Nat}
    {c : Ck} {e : List Ev} (I : HInv pb s L B A) (I' : HInv pb s' L' B A') (hc : A.Used c) (E : FreeEv H addr pb nm A c A' e) :
    FreeTold H addr nm s.w.mem s'.w.mem B c.uptr e := by
  obtain ⟨_, m, hm, hst, h1, h2, h3, rfl⟩ := E
  have hu := I.wf.uptr_ge c
  have hl := I.wf.uptr_le hc.1
  refine ⟨c.size, m.addr, m.size, chunkSize_of I hc, ?_, by omega, by omega, ?_, h3, rfl⟩
  · have := isChunk_of I' hm
    rw [hst] at this
    exact this
  · omega

/-- C67, for valid calls on a chain over user buffers: the free of a live block sends exactly its event, and the one of its
merge, if any. -/
theorem C67_free_partial (H : Tab) {S : Source σ} {C : Config} {pb : Nat} {s : CS σ} {L : List Block}
    {B : List (Nat × Nat)} (hf : C.reallocFactor ≠ 0) (h : Reach S C pb s L B) {l : Block} (hl : l ∈ L) :
    ∃ s' e, execH H S C s (.free l.ptr) = .ok (s', 0, e) ∧ FreeTold H s.c.addr s.c.noMerge s.w.mem s'.w.mem B l.ptr e := by
  obtain ⟨A, I⟩ := reach_inv hf h
  obtain ⟨c, hc, h1, _⟩ := I.live.used l hl
  obtain ⟨s', e, A', e1, I', _, _, E⟩ := HInv.freeH H S C I hc
  refine ⟨s', e, ?_, ?_⟩
  · simp only [execH]
    rw [← h1, e1]
    rfl
  · rw [← h1]
    exact told_free I I' hc E

/-- C67, for valid calls on a chain over user buffers: a `realloc` of a live block sends either nothing and returns the same
pointer, or the events of an allocation (none if it fails) followed by those of the free of the old block, in this order. `m1`
is the memory between the two. -/
theorem C67_realloc_partial (H : Tab) {S : Source σ} {C : Config} {pb : Nat} {s : CS σ} {L : List Block}
    {B : List (Nat × Nat)} (hf : C.reallocFactor ≠ 0) (h : Reach S C pb s L B) {l : Block} (hl : l ∈ L) {b n : Nat} (hn : n ≠ 0)
    (hv : ValidOp pb L B (.realloc l.ptr b n)) :
    ∃ s' r e, execH H S C s (.realloc l.ptr b n) = .ok (s', r, e) ∧
      ((r = l.ptr ∧ e = [] ∧ s' = s) ∨
        (r ≠ l.ptr ∧ ∃ m1 e1 e2, e = e1 ++ e2 ∧ (r = 0 → e1 = []) ∧
          (r ≠ 0 → AllocTold H s.c.addr s.w.mem m1 B b n r e1) ∧
          FreeTold H s.c.addr s.c.noMerge m1 s'.w.mem B l.ptr e2)) := by
  obtain ⟨A, I⟩ := reach_inv hf h
  obtain ⟨hb, hsz, hp'⟩ := hv
  obtain ⟨c0, hc0, g1, _⟩ := I.live.used l hl
  have hp : l.ptr ≠ 0 := by have := I.wf.uptr_ge c0; omega
  obtain ⟨l', hl', he, hcond⟩ := hp'.resolve_left hp
  obtain ⟨c, hc, h1, s', r, e, A', e0, I', _, _, hk, E⟩ := HInv.reallocH H S C hf I hl' hb hsz hn (hcond.resolve_left hn)
  rw [he] at h1 e0
  refine ⟨s', r, e, e0, ?_⟩
  rcases E with ⟨hr, _, rfl⟩ | ⟨A1, e1, e2, ⟨s1, L1, I1⟩, hne, E1, hc1, E2, rfl⟩
  · exact Or.inl ⟨by rw [hr, h1], rfl, hk hr⟩
  · obtain ⟨k1, k2⟩ := told_alloc I I1 E1
    refine Or.inr ⟨by rw [← h1]; exact hne, s1.w.mem, e1, e2, rfl, k1, k2, ?_⟩
    rw [← h1]
    exact told_free I1 I' hc1 E2

/-- C67, for valid calls on a chain over user buffers: an observer that only receives the events of the allocations and of the
frees never sees a block allocated twice nor the free of an unknown block or with another size, and its table holds exactly the
live blocks of the client, each one with the size of its chunk. -/
theorem C67_replay_partial {H : Tab} {S : Source σ} {C : Config} {pb : Nat} {s : CS σ} {L : List Block}
    {B : List (Nat × Nat)} {T : List Ev} (hf : C.reallocFactor ≠ 0) (hA : H.alloc = true) (hF : H.free = true)
    (h : TReach H S C pb s L B T) :
    ∃ t, observe [] T = some t ∧ (t.map Prod.fst).Nodup ∧ (∀ p, p ∈ t.map Prod.fst ↔ p ∈ L.map Block.ptr) ∧
      ∀ x ∈ t, ChunkSize s.w.mem x.1 x.2 ∧ ∀ l ∈ L, l.ptr = x.1 → l.len + 16 ≤ x.2 := by
  obtain ⟨A, t, I, o, T⟩ := h.inv hf hA hF
  refine ⟨t, o, T.nodup, ?_, ?_⟩
  · intro p
    constructor
    · intro hp
      obtain ⟨x, hx, rfl⟩ := List.mem_map.1 hp
      obtain ⟨c, hc, h1, _⟩ := T.used x hx
      obtain ⟨l, hl, he⟩ := I.live.all c hc
      exact List.mem_map.2 ⟨l, hl, by rw [he, h1]⟩
    · intro hp
      obtain ⟨l, hl, rfl⟩ := List.mem_map.1 hp
      obtain ⟨c, hc, h1, _⟩ := I.live.used l hl
      exact List.mem_map.2 ⟨_, T.all c hc, h1⟩
  · intro x hx
    obtain ⟨c, hc, h1, h2⟩ := T.used x hx
    refine ⟨by rw [← h1, ← h2]; exact chunkSize_of I hc, ?_⟩
    intro l hl he
    obtain ⟨d, hd, g1, g2, _⟩ := I.live.used l hl
    have : d = c := I.wf.uptr_inj hd.1 hc.1 (by rw [g1, he, h1])
    subst this
    have := I.wf.uptr_ge d
    omega

/-- C67: whatever the state and the source, the events of the blocs are exactly the calls of the source, in the same order: one
event for each request, with the bloc it returned, and one for each bloc given back. -/
theorem C67_blocs {H : Tab} {S : Source σ} {C : Config} {s s' : CS (σ × List (Bool × Nat))} {op : Op} {r : Nat} {e : List Ev}
    (hA : H.addBloc = true) (hF : H.freeBloc = true) (h : execH H (logS S) C s op = .ok (s', r, e)) :
    s'.w.src.2 = s.w.src.2 ++ calls e :=
  execH_log hA hF h

/-- C67: with the event of the purge asked for, the purge of a queue that is not empty never returns:
`sctk_alloc_rfq_count_entries` follows the list with one variable and tests the other. -/
theorem C67_refuted_flush {H : Tab} {S : Source σ} {C : Config} {s s' : CS σ} {e : List Ev} (hH : H.flush = true)
    (hq : s.c.rfqHead ≠ 0) : purgeRfqH H S C s ≠ .ok (s', e) := by
  intro h
  unfold purgeRfqH at h
  split at h
  · cases h
  · obtain ⟨_, _, h2⟩ := Outcome.bind_eq_ok h
    obtain ⟨e1, h3, _⟩ := Outcome.bind_eq_ok h2
    unfold flushHook at h3
    rw [if_pos hH] at h3
    obtain ⟨k, h4, _⟩ := Outcome.bind_eq_ok h3
    exact countLoop_bad hq h4

/-- C67: a huge allocation refused by the source returns NULL without hooks, and is undefined with the hook of the huge
allocations (size of the chunk at NULL). The bloc NULL is announced before that. -/
theorem C67_refuted_huge {H : Tab} {S : Source σ} {s : CS σ} {n : Nat} {m : Mem} {x : σ} (hH : H.hugeAlloc = true)
    (hd : s.c.dead = false) (hs : s.c.hasSrc = true) (hn : isHuge s.c n = true) (hn0 : n ≠ 0)
    (hr : S.request s.w.mem s.w.src (requestSize n) = .ok (m, x, 0)) :
    (∃ s', allocAlign S s 0 n = .ok (s', 0)) ∧ allocAlignH H S s 0 n = .ub := by
  have hsrc : (!s.c.hasSrc) = false := by rw [hs]; rfl
  have hz : (if 0 > 1 then add64 n 0 else n) = n := if_neg (by omega)
  constructor
  · unfold allocAlign
    rw [if_neg (by simp [hd]), if_neg hn0]
    simp only [hz]
    rw [if_pos hn]
    unfold requestMem
    rw [if_neg (by simp [hsrc]), hr, Outcome.ok_bind]
    exact ⟨_, rfl⟩
  · unfold allocAlignH
    rw [if_neg (by simp [hd]), if_neg hn0]
    simp only [hz]
    rw [if_pos hn]
    unfold requestMemH
    rw [if_neg (by simp [hsrc]), hr, Outcome.ok_bind]
    unfold hugeHook
    rw [hH]
    rfl

/-- C67: a request refused by the source is announced as a bloc at NULL. -/
theorem C67_refuted_null_bloc {H : Tab} {S : Source σ} {s : CS σ} {n : Nat} {m : Mem} {x : σ} (hH : H.hugeAlloc = false)
    (hA : H.addBloc = true) (hd : s.c.dead = false) (hs : s.c.hasSrc = true) (hn : isHuge s.c n = true) (hn0 : n ≠ 0)
    (hr : S.request s.w.mem s.w.src (requestSize n) = .ok (m, x, 0)) :
    ∃ s', allocAlignH H S s 0 n = .ok (s', 0, [.addBloc s.c.addr 0]) := by
  have hsrc : (!s.c.hasSrc) = false := by rw [hs]; rfl
  have hz : (if 0 > 1 then add64 n 0 else n) = n := if_neg (by omega)
  unfold allocAlignH
  rw [if_neg (by simp [hd]), if_neg hn0]
  simp only [hz]
  rw [if_pos hn]
  unfold requestMemH
  rw [if_neg (by simp [hsrc]), hr, Outcome.ok_bind]
  unfold hugeHook
  rw [hH]
  simp only [emit, hA]
  exact ⟨_, rfl⟩

/-- A chain over a source that has no memory, a request of 2000000 bytes. -/
example : ∃ (s : CS Unit) (n : Nat), s.c.dead = false ∧ s.c.hasSrc = true ∧ isHuge s.c n = true ∧ n ≠ 0 ∧
    (∃ s', allocAlign S0 s 0 n = .ok (s', 0)) ∧ allocAlignH Tab.most S0 s 0 n = .ub ∧
    ∃ s', allocAlignH { Tab.most with hugeAlloc := false } S0 s 0 n = .ok (s', 0, [.addBloc s.c.addr 0]) := by
  obtain ⟨s, _, _, _, _, R, _⟩ := two_blocks
  obtain ⟨A, I⟩ := reach_inv default_factor R
  have hd : ({ s with c := { s.c with hasSrc := true } } : CS Unit).c.dead = false := I.inv.dead
  have hh : isHuge ({ s with c := { s.c with hasSrc := true } } : CS Unit).c 2000000 = true := by
    simp only [isHuge, Bool.true_and]
    decide
  obtain ⟨k1, k2⟩ := C67_refuted_huge (H := Tab.most) (S := S0) (n := 2000000) rfl hd rfl hh (by omega) rfl
  exact ⟨_, 2000000, hd, rfl, hh, by omega, k1, k2,
    C67_refuted_null_bloc (H := { Tab.most with hugeAlloc := false }) rfl rfl hd rfl hh (by omega) rfl⟩

/-- C67: the size announced for an aligned allocation is not the one asked for but this size plus the alignment. -/
theorem C67_refuted_request : ∃ (s s' : CS Unit) (r z : Nat) (e : List Ev), Reach S0 Config.default 4096 s [] [(8192, 4096)] ∧
    execH Tab.most S0 Config.default s (.alloc 64 200) = .ok (s', r, e) ∧ r ≠ 0 ∧ .alloc s.c.addr 264 r z 64 ∈ e := by
  obtain ⟨s0, s, A0, A, d, O⟩ := one_block (b := 64) (n := 200) sampleBuf_4096 (Or.inr ⟨6, rfl⟩) (by omega)
    (by simp) (by omega)
  have hv : ValidOp 4096 [] [(8192, 4096)] (.alloc 64 200) := ⟨Or.inr ⟨6, rfl⟩, Or.inl (by simp)⟩
  obtain ⟨s', r, e, e1, _, k⟩ := C67_alloc_partial Tab.most default_factor O.reach0 hv
  have e2 := C67_same (by simp [opBound]) e1
  have e3 : exec S0 Config.default s0 (.alloc 64 200) = .ok (s, d.uptr) := O.call
  rw [e2] at e3
  cases e3
  have hne : d.uptr ≠ 0 := by have := O.inv.wf.uptr_ge d; omega
  obtain ⟨a, z, zf, _, _, _, _, _, _, he⟩ := k hne
  refine ⟨s0, s, d.uptr, z, e, O.reach0, e1, hne, ?_⟩
  rw [he]
  exact List.mem_append_right _ (List.mem_singleton.2 rfl)

/-- A history with two live blocks and its events: the observer knows both blocks. -/
example : ∃ (s : CS Unit) (L : List Block) (T : List Ev) (t : List (Nat × Nat)),
    TReach Tab.most S0 Config.default 4096 s L [(8192, 4096)] T ∧ L.length = 2 ∧ observe [] T = some t ∧ t.length = 2 := by
  obtain ⟨s, p, q, hp, hq, R, _⟩ := two_blocks
  obtain ⟨T, hT⟩ := (C67_no_failure_partial Tab.most default_factor).1 R
  obtain ⟨t, o, hn, hm, _⟩ := C67_replay_partial default_factor rfl rfl hT
  obtain ⟨A, I⟩ := reach_inv default_factor R
  have hd := I.live.nodup
  refine ⟨s, _, T, t, hT, rfl, o, ?_⟩
  have := ((List.perm_ext_iff_of_nodup hn hd).2 (fun p => hm p)).length_eq
  simpa using this

/-- The free of the first of the two blocks and a `realloc` of the second one, with their events. -/
example : ∃ (s : CS Unit) (L : List Block) (l k : Block), Reach S0 Config.default 4096 s L [(8192, 4096)] ∧ l ∈ L ∧ k ∈ L ∧
    l ≠ k ∧ ValidOp 4096 L [(8192, 4096)] (.realloc k.ptr 0 300) ∧ s.c.noMerge = false := by
  obtain ⟨s, p, q, hp, hq, R, hm⟩ := two_blocks
  refine ⟨s, _, ⟨q, 200, false⟩, ⟨p, 100, true⟩, R, by simp, by simp, by simp, ⟨Or.inl (by omega), Or.inl (by simp), Or.inr ?_⟩, hm⟩
  exact ⟨⟨p, 100, true⟩, by simp, rfl, Or.inr (Or.inl rfl)⟩

/-- A queue with an entry, for `C67_refuted_flush`. -/
example : ∃ (s : CS Unit), s.c.rfqHead ≠ 0 ∧ ∀ s' e, purgeRfqH { Tab.most with flush := true } S0 Config.default s ≠ .ok (s', e) := by
  obtain ⟨s, _, _, _, _, R, _⟩ := two_blocks
  refine ⟨{ s with c := { s.c with rfqHead := 8240, rfqTail := 8240 } }, ?_, ?_⟩
  · show 8240 ≠ 0
    omega
  · intro s' e
    exact C67_refuted_flush rfl (show 8240 ≠ 0 by omega)

end MpcAlloc.Hooks
