import Verif.History

/-
Consequences of the invariant used by the property files.
-/

namespace MpcAlloc

variable {σ : Type}

/-- View of a chunk as found in memory. -/
def Ck.view (c : Ck) : Nat × Nat × Bool := (c.addr, c.size, decide (c.st = .free))

theorem chunks_of {m : Mem} {prev a e : Nat} {l : List Ck} (h : Tiles a l e) (hm : ChunksMem m prev l)
    (hw : ∀ c ∈ l, c.WF) : Chunks m a e (l.map Ck.view) := by
  induction l generalizing a prev with
  | nil => simp only [Tiles] at h; subst h; exact .nil _
  | cons c l ih =>
    obtain ⟨rfl, h2⟩ := h
    obtain ⟨hc, h3⟩ := hm
    have hcw := hw c List.mem_cons_self
    have hge := hcw.ge
    have hle := tiles_le h2
    have hsz : readLE m c.addr 7 = c.size := by
      have := hc.hdr.size
      rw [Ck.hdrSize_eq hcw.nstop] at this
      exact this
    have hfr : decide ((m (c.addr + 15)).toNat / 4 % 2 = 0) = decide (c.st = .free) := by
      have := hc.hdr.info
      rw [this]
      cases hst : c.st with
      | free => simp [CkSt.num]
      | used p => simp [CkSt.num]
      | stop => simp [CkSt.num]
    have := Chunks.cons (m := m) (a := c.addr) (e := e) (l := l.map Ck.view) (by omega)
      (by rw [hsz]; exact ih h2 h3 (fun d hd => hw d (List.mem_cons_of_mem _ hd)))
    rw [hsz, hfr] at this
    exact this

theorem Chunks.unique {m : Mem} {a e : Nat} {l l' : List (Nat × Nat × Bool)} (h : Chunks m a e l)
    (h' : Chunks m a e l') : l = l' := by
  induction h generalizing l' with
  | nil a =>
    cases h' with
    | nil => rfl
    | cons h _ => exact absurd h (Nat.lt_irrefl _)
  | cons hlt _ ih =>
    cases h' with
    | nil => exact absurd hlt (Nat.lt_irrefl _)
    | cons _ h2 => rw [ih h2]

/-- The segment of a buffer. -/
theorem HInv.seg {pb : Nat} {s : CS σ} {L : List Block} {B : List (Nat × Nat)} {A : AHeap} (H : HInv pb s L B A)
    {y : Nat × Nat} (hy : y ∈ B) : ∃ g ∈ A.segs, g.base = y.1 ∧ g.size = y.2 ∧
      BufChunks s.w.mem y.1 y.2 (g.chunks.map Ck.view) := by
  rw [← H.bufs] at hy
  obtain ⟨g, hg, rfl⟩ := List.mem_map.1 hy
  refine ⟨g, hg, rfl, rfl, ?_⟩
  have hw := H.wf.seg g hg
  have hm := (H.inv.mem.segs g hg).chunks
  rw [Seg.ext, chunksMem_append] at hm
  exact chunks_of hw.tiles hm.1 hw.chunks

/-- The chunks of a segment. -/
theorem HInv.chunksOf {pb : Nat} {s : CS σ} {L : List Block} {B : List (Nat × Nat)} {A : AHeap} (H : HInv pb s L B A)
    {g : Seg} (hg : g ∈ A.segs) : BufChunks s.w.mem g.base g.size (g.chunks.map Ck.view) := by
  have hw := H.wf.seg g hg
  have hm := (H.inv.mem.segs g hg).chunks
  rw [Seg.ext, chunksMem_append] at hm
  exact chunks_of hw.tiles hm.1 hw.chunks

theorem HInv.segOf {pb : Nat} {s : CS σ} {L : List Block} {B : List (Nat × Nat)} {A : AHeap} (H : HInv pb s L B A)
    {g : Seg} (hg : g ∈ A.segs) : (g.base, g.size) ∈ B := by
  rw [← H.bufs]; exact List.mem_map.2 ⟨g, hg, rfl⟩

theorem HInv.hasOf {pb : Nat} {s : CS σ} {L : List Block} {B : List (Nat × Nat)} {A : AHeap} (H : HInv pb s L B A)
    {y : Nat × Nat} (hy : y ∈ B) {l : List (Nat × Nat × Bool)} (hl : BufChunks s.w.mem y.1 y.2 l) {a sz : Nat}
    (hc : (a, sz, true) ∈ l) : A.Has ⟨a, sz, .free⟩ := by
  obtain ⟨g, hg, _, _, h⟩ := H.seg hy
  rw [hl.unique h] at hc
  obtain ⟨c, hcg, he⟩ := List.mem_map.1 hc
  obtain ⟨ca, cs, cst⟩ := c
  simp only [Ck.view, Prod.mk.injEq, decide_eq_true_eq] at he
  obtain ⟨rfl, rfl, rfl⟩ := he
  exact ⟨g, hg, hcg⟩

theorem isChain_single {α : Type} {R : α → α → Prop} {l : List α} (h : l.IsChain R) (hr : ∀ a ∈ l, ∀ b ∈ l, ¬ R a b) :
    l.length ≤ 1 := by
  cases l with
  | nil => simp
  | cons a l =>
    cases l with
    | nil => simp
    | cons b l =>
      rw [List.isChain_cons] at h
      exact absurd (h.1 b (by simp)) (hr a (by simp) b (by simp))

/-- Without live block and with merging each segment is one free chunk. -/
theorem HInv.empty_seg {pb : Nat} {s : CS σ} {B : List (Nat × Nat)} {A : AHeap} (H : HInv pb s [] B A)
    (hm : s.c.noMerge = false) {g : Seg} (hg : g ∈ A.segs) : g.chunks = [⟨g.base + 32, g.size - 48, .free⟩] := by
  have hfree : ∀ c ∈ g.chunks, c.st = .free := by
    intro c hc
    rcases AHeap.has_used_or_free H.wf (show A.Has c from ⟨g, hg, hc⟩) with h | h
    · obtain ⟨l, hl, _⟩ := H.live.all c h
      simp at hl
    · exact h
  have hw := H.wf.seg g hg
  have hge := hw.ge
  have hlen := isChain_single (H.noAdj hm g hg) (fun a ha b hb h => h ⟨hfree a ha, hfree b hb⟩)
  have ht := hw.tiles
  cases hch : g.chunks with
  | nil =>
    rw [hch] at ht
    simp only [Tiles] at ht
    omega
  | cons c l =>
    rw [hch] at hlen ht
    have : l = [] := by
      simp only [List.length_cons] at hlen
      exact List.length_eq_zero_iff.1 (by omega)
    subst this
    simp only [Tiles] at ht
    have hf := hfree c (by rw [hch]; simp)
    obtain ⟨ca, cs, cst⟩ := c
    simp only at ht hf
    obtain ⟨rfl, h2⟩ := ht
    subst hf
    have : cs = g.size - 48 := by omega
    rw [this]

/-- What an allocation returns on a reachable state. -/
theorem HInv.alloc {pb : Nat} {s s' : CS σ} {L : List Block} {B : List (Nat × Nat)} {A : AHeap} (S : Source σ)
    (H : HInv pb s L B A) {b n r : Nat} (hb : GoodBound b) (hsz : SizeOK B b n)
    (e : allocAlign S s b n = .ok (s', r)) :
    ∃ A', AllocRel pb A b n r A' ∧ HInv pb s' (account L (.alloc b n) r) B A' ∧ (r = 0 → s' = s) ∧
      s'.c.noMerge = s.c.noMerge := by
  obtain ⟨r', A', hR, W', hs⟩ := alloc_ok S H.wf hb (sizeOK_aligned H.wf H.bufs hsz)
  obtain ⟨h', e1, M1, f1, z1⟩ := hs s H.inv H.src
  rw [e] at e1
  cases e1
  have hsh : A'.shape = A.shape := by
    rcases hR with ⟨_, rfl, _⟩ | ⟨c, d, R, _⟩
    · rfl
    · exact R.shape
  refine ⟨A', hR, ⟨W', H.inv.setHeap M1 hsh, H.src, hsh.trans H.bufs, ?_, ?_, H.regs, H.based⟩, ?_, rfl⟩
  · rcases hR with ⟨rfl, rfl, _⟩ | ⟨c, d, R, rfl, hne⟩
    · simpa [account] using H.live
    · simp only [account, if_neg hne]
      exact H.live.add W' R.used R.fresh R.fit (by intro h; exact R.noPad (of_decide_eq_true h))
  · intro h
    rcases hR with ⟨_, rfl, _⟩ | ⟨c, d, R, _⟩
    · exact H.noAdj h
    · exact R.noAdj (H.noAdj h)
  · intro h
    rw [z1 h]
    rfl

/-- What a free does on a reachable state. -/
theorem HInv.free {pb : Nat} {s s' : CS σ} {L : List Block} {B : List (Nat × Nat)} {A : AHeap} (S : Source σ)
    (C : Config) (H : HInv pb s L B A) {c : Ck} (hc : A.Used c) (e : chainFree S C s c.uptr = .ok s') :
    ∃ A', FreeRel pb A c A' ∧ HInv pb s' (account L (.free c.uptr) 0) B A' ∧ s'.c.noMerge = s.c.noMerge ∧
      (s.c.noMerge = true → A'.Has c.mkFree) := by
  obtain ⟨A', R, ⟨hna', hmk⟩, hs⟩ := free_ok S C H.wf hc s.c.noMerge
  obtain ⟨h', e1, M1, f1⟩ := hs s H.inv H.src rfl
  rw [e] at e1
  cases e1
  refine ⟨A', R, ⟨R.wf, H.inv.setHeap M1 R.shape, H.src, R.shape.trans H.bufs, ?_, ?_, H.regs, H.based⟩, rfl, hmk⟩
  · simp only [account]
    exact H.live.del H.wf hc R.used
  · intro h
    exact hna' h (H.noAdj h)

/-- The client fills one of its blocks. -/
theorem Reach.fill {S : Source σ} {C : Config} {pb : Nat} {s : CS σ} {L : List Block} {B : List (Nat × Nat)}
    (h : Reach S C pb s L B) {l : Block} (hl : l ∈ L) {m : Mem} (hm : ∀ x, ¬ l.Byte x → m x = s.w.mem x) :
    Reach S C pb (s.setMem m) L B := by
  have key : ∀ k, k ≤ l.len →
      Reach S C pb (s.setMem (fun x => if l.ptr ≤ x ∧ x < l.ptr + k then m x else s.w.mem x)) L B := by
    intro k
    induction k with
    | zero =>
      intro _
      have : (fun x => if l.ptr ≤ x ∧ x < l.ptr + 0 then m x else s.w.mem x) = s.w.mem := by
        funext x; rw [if_neg (by omega)]
      rw [this]
      exact h
    | succ k ih =>
      intro hk
      have R := (ih (by omega)).step (op := .write (l.ptr + k) (m (l.ptr + k))) ⟨l, hl, by unfold Block.Byte; omega⟩
        trivial rfl
      have e : (fun x => if l.ptr ≤ x ∧ x < l.ptr + (k + 1) then m x else s.w.mem x) =
          (fun x => if x = l.ptr + k then m (l.ptr + k)
            else if l.ptr ≤ x ∧ x < l.ptr + k then m x else s.w.mem x) := by
        funext x
        by_cases hx : x = l.ptr + k
        · rw [if_pos hx, if_pos (by omega), hx]
        · rw [if_neg hx]
          by_cases hx2 : l.ptr ≤ x ∧ x < l.ptr + k
          · rw [if_pos hx2, if_pos (by omega)]
          · rw [if_neg hx2, if_neg (by omega)]
      rw [e]
      exact R
  have := key l.len (Nat.le_refl _)
  have hmm : (fun x => if l.ptr ≤ x ∧ x < l.ptr + l.len then m x else s.w.mem x) = m := by
    funext x
    by_cases hx : l.ptr ≤ x ∧ x < l.ptr + l.len
    · rw [if_pos hx]
    · rw [if_neg hx, hm x hx]
  rw [hmm] at this
  exact this

end MpcAlloc
