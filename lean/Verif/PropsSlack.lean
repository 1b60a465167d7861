import Verif.PropsBytes

/-!
C83: how much more than what the client asked for a block holds, at any time of a history. A call changes the chunk of the
block that it allocates, frees or resizes only.
-/

namespace MpcAlloc

variable {Ω : Env}

/-! ## Specification -/

/-- A block with a chunk of `z` bytes, 16 of them for the header, may be left where it is by a resize to `n` bytes: they fit,
and leave unused at most the threshold and at most the part given by the factor. -/
def LeftAlone (C : Config) (z n : Nat) : Prop :=
  n ≤ z - 16 ∧ z - 16 - n ≤ C.reallocThreshold ∧ z - 16 - n ≤ (z - 16) / C.reallocFactor

/-- The chunk, of `size` bytes, of a block of `len` bytes that was obtained with a boundary of at most `M` (0 if there is
none): the one of a new block of this size and boundary (an empty request counts as 1 byte), or what `sctk_realloc` leaves to
a block that is resized in place. -/
def Slack (C : Config) (M len size : Nat) : Prop :=
  (∃ N, max 1 len ≤ N ∧ N ≤ max 1 len + M ∧ NewChunk N size) ∨ LeftAlone C size len

/-- The calls ask for boundaries of at most `M`. -/
def BoundLe (M : Nat) : POp → Prop
  | .malloc _ h _ => h ≤ M
  | .memalign _ b _ => b ≤ M
  | .calloc _ h _ _ => h ≤ M
  | .realloc _ _ h _ => h ≤ M
  | _ => True

/-! ## Lemmas -/

/-- What `F` says of the blocks of `Z` is the same. -/
def StayF {α : Type} (F : Mem → Nat → α) (s s' : PS) (G : PSpec) (Z : PBlock → Prop) : Prop :=
  ∀ l ∈ G.live ++ G.pend, Z l → F s'.w.mem l.ptr = F s.w.mem l.ptr

/-- The chunks of `Z` are the same. -/
abbrev Stay (s s' : PS) (G : PSpec) (Z : PBlock → Prop) : Prop := StayF chunkBytes s s' G Z

/-- What `F` says of a pointer depends on its chunk only. -/
def Seen {α : Type} (F : Mem → Nat → α) : Prop :=
  ∀ ⦃Q Q' : Nat⦄ ⦃m m' : Mem⦄ ⦃c c' : Chain⦄ ⦃A A' : AHeap⦄ ⦃k : Ck⦄, ChSt Q m c A → ChSt Q' m' c' A' → A.Used k → A'.Used k →
    F m' k.uptr = F m k.uptr

theorem chunkBytes_seen : Seen chunkBytes := by
  have key : ∀ {Q : Nat} {m : Mem} {c : Chain} {A : AHeap} {k : Ck}, ChSt Q m c A → A.Used k → chunkBytes m k.uptr = k.size := by
    intro Q m c A k T hk
    obtain ⟨g1, _, g3⟩ := getChunkUnpadded_used T.wf T.mem hk
    unfold chunkBytes
    rw [g1]
    exact g3
  intro Q Q' m m' c c' A A' k T T' hk hk'
  rw [key T hk, key T' hk']

theorem Seen.and {α β : Type} {F : Mem → Nat → α} {K : Mem → Nat → β} (hF : Seen F) (hK : Seen K) :
    Seen (fun m p => (F m p, K m p)) := fun _ _ _ _ _ _ _ _ _ T T' h h' => Prod.ext (hF T T' h h') (hK T T' h h')

theorem PBase.stayF {α : Type} {F : Mem → Nat → α} (hF : Seen F) {s s' : PS} {H : List Gh} {L L' : List (Nat × Nat)} {P P' : Res}
    {t i : Nat} {g g' gi : Gh} {k : Ck}
    (B : PBase s H L P) (B' : PBase s' (H.set t g') L' P') (hg : H[t]? = some g) (hi : H[i]? = some gi) (hk : gi.A.Used k)
    (h : i = t → g'.A.Used k) : F s'.w.mem k.uptr = F s.w.mem k.uptr := by
  obtain ⟨c, _, T⟩ := B.getH hi
  by_cases e : i = t
  · obtain ⟨c', _, T'⟩ := B'.getH (set_get hg)
    exact hF T.ch T'.ch hk (h e)
  · obtain ⟨c', _, T'⟩ := B'.getH (t := i) (by rw [List.getElem?_set_ne (Ne.symm e)]; exact hi)
    exact hF T.ch T'.ch hk hk

theorem PBase.stay {s s' : PS} {H : List Gh} {L L' : List (Nat × Nat)} {P P' : Res} {t i : Nat} {g g' gi : Gh} {k : Ck}
    (B : PBase s H L P) (B' : PBase s' (H.set t g') L' P') (hg : H[t]? = some g) (hi : H[i]? = some gi) (hk : gi.A.Used k)
    (h : i = t → g'.A.Used k) : MpcAlloc.chunkBytes s'.w.mem k.uptr = MpcAlloc.chunkBytes s.w.mem k.uptr := by
  rw [B.chunkBytes hi hk]
  by_cases e : i = t
  · exact B'.chunkBytes (set_get hg) (h e)
  · exact B'.chunkBytes (t := i) (by rw [List.getElem?_set_ne (Ne.symm e)]; exact hi) hk

/-- Every block has a used chunk. -/
theorem PBlk.chunk' {cl : Prop} {s : PS} {G : PSpec} {H : List Gh} {L : List (Nat × Nat)} {P : Res} (K : PBlk cl G H)
    (B : PBase s H L P) {l : PBlock} (hl : l ∈ G.live ++ G.pend) :
    ∃ g k, H[l.owner]? = some g ∧ g.A.Used k ∧ k.uptr = l.ptr := by
  rcases List.mem_append.1 hl with hl | hl
  · obtain ⟨g, k, h1, h2, _, h3, _⟩ := K.live l hl
    exact ⟨g, k, h1, h2, h3⟩
  · obtain ⟨g, k, h1, h2, h3, _⟩ := K.pend l hl
    obtain ⟨ch, _, T⟩ := B.getH h1
    exact ⟨g, k, h1, T.q.used k h2, h3⟩

section
variable {C : Config} {cl : Prop} {s : PS} {G : PSpec}

theorem purge_stayF {α : Type} {F : Mem → Nat → α} (hF : Seen F)
    (I : PInv Ω cl s G) {t : Nat} {c : Chain} {u : CS Light} (hc : s.chs[t]? = some c)
    (e : purgeRfq (lightSource C) C ⟨s.w, c⟩ = .ok u) : StayF F s (s.put t u) (G.drain t) (fun _ => True) := by
  obtain ⟨H, L, P, B, K⟩ := I
  obtain ⟨c', g, hc', hg, T⟩ := B.get (List.getElem?_eq_some_iff.1 hc).1
  obtain rfl : c' = c := Option.some.inj (hc'.symm.trans hc)
  obtain ⟨u', A', L', e', R, q'⟩ := purge_ok (C := C) (B.at hc hg) T.q
  obtain rfl : u' = u := Outcome.ok.inj (e'.symm.trans e)
  intro l hl _
  rcases List.mem_append.1 hl with hl | hl
  · obtain ⟨gi, k, hi, hk, hq, hp, _⟩ := K.live l hl
    rw [← hp]
    refine B.stayF hF (B.step hc hg R.step q') hg hi hk (fun e => ?_)
    rw [e] at hi
    obtain rfl : gi = g := Option.some.inj (hi.symm.trans hg)
    exact R.step.keep k hk hq
  · obtain ⟨hl, ho⟩ := List.mem_filter.1 hl
    obtain ⟨gi, k, hi, hk, hp⟩ := K.chunk' B (List.mem_append_right _ hl)
    rw [← hp]
    exact B.stayF hF (B.step hc hg R.step q') hg hi hk (fun e => absurd e (of_decide_eq_true ho))

theorem purge_stay (I : PInv Ω cl s G) {t : Nat} {c : Chain} {u : CS Light} (hc : s.chs[t]? = some c)
    (e : purgeRfq (lightSource C) C ⟨s.w, c⟩ = .ok u) : Stay s (s.put t u) (G.drain t) (fun _ => True) :=
  purge_stayF chunkBytes_seen I hc e

theorem alloc_stayF {α : Type} {F : Mem → Nat → α} (hF : Seen F)
    (I : PInv Ω cl s G) {t b n r : Nat} {c : Chain} {u : CS Light} (hc : s.chs[t]? = some c) (hb : GoodBound b)
    (hn : n ≠ 0) (hsz : PSize (alignedSize b n)) (e : allocAlign (lightSource C) ⟨s.w, c⟩ b n = .ok (u, r)) :
    StayF F s (s.put t u) G (fun _ => True) := by
  obtain ⟨H, L, P, B, K⟩ := I
  obtain ⟨c', g, hc', hg, T⟩ := B.get (List.getElem?_eq_some_iff.1 hc).1
  obtain rfl : c' = c := Option.some.inj (hc'.symm.trans hc)
  have J := B.at hc hg
  rcases salloc_ok (C := C) J hb hn hsz.1 hsz.fits with ⟨_, e'⟩ | ⟨u', d, A', L', e', R⟩
  · rw [e'] at e; cases e
  obtain ⟨rfl, _⟩ := Prod.mk.inj (Outcome.ok.inj (e'.symm.trans e))
  have S := R.step J (fun _ => True)
  have q' : QAt u' A' g.Q := S.queue J T.q (fun _ _ => trivial) (by rw [R.chain]; exact ⟨rfl, rfl⟩)
  intro l hl _
  obtain ⟨gi, k, hi, hk, hp⟩ := K.chunk' B hl
  rw [← hp]
  refine B.stayF hF (B.step hc hg S q') hg hi hk (fun e => ?_)
  rw [e] at hi
  obtain rfl : gi = g := Option.some.inj (hi.symm.trans hg)
  exact (R.used k).2 (Or.inl hk)

theorem alloc_stay (I : PInv Ω cl s G) {t b n r : Nat} {c : Chain} {u : CS Light} (hc : s.chs[t]? = some c) (hb : GoodBound b)
    (hn : n ≠ 0) (hsz : PSize (alignedSize b n)) (e : allocAlign (lightSource C) ⟨s.w, c⟩ b n = .ok (u, r)) :
    Stay s (s.put t u) G (fun _ => True) :=
  alloc_stayF chunkBytes_seen I hc hb hn hsz e

theorem free_stayF {α : Type} {F : Mem → Nat → α} (hF : Seen F)
    (I : PInv Ω cl s G) {l : PBlock} {c : Chain} {u : CS Light} (hl : l ∈ G.live)
    (hc : s.chs[l.owner]? = some c) (e : chainFree (lightSource C) C ⟨s.w, c⟩ l.ptr = .ok u) :
    StayF F s (s.put l.owner u) G (fun m => m.ptr ≠ l.ptr) := by
  obtain ⟨H, L, P, B, K⟩ := I
  obtain ⟨g, k, hg, hk, hq, hp, _⟩ := K.live l hl
  have T := B.th _ _ _ hc hg
  have J := B.at hc hg
  obtain ⟨u', A', L', e', R⟩ := sfree_ok (C := C) J hk
  rw [hp] at e'
  obtain rfl : u' = u := Outcome.ok.inj (e'.symm.trans e)
  have S := R.step J
  have q' : QAt u' A' g.Q := S.queue J T.q (fun j hj e => hq (e ▸ hj)) (by rw [R.chain]; exact ⟨rfl, rfl⟩)
  intro m hm hz
  obtain ⟨gi, j, hi, hj, hjp⟩ := K.chunk' B hm
  rw [← hjp]
  refine B.stayF hF (B.step hc hg S q') hg hi hj (fun e => ?_)
  rw [e] at hi
  obtain rfl : gi = g := Option.some.inj (hi.symm.trans hg)
  exact (R.used j (fun e => hz (by rw [← hjp, e, hp]))).2 hj

theorem free_stay (I : PInv Ω cl s G) {l : PBlock} {c : Chain} {u : CS Light} (hl : l ∈ G.live)
    (hc : s.chs[l.owner]? = some c) (e : chainFree (lightSource C) C ⟨s.w, c⟩ l.ptr = .ok u) :
    Stay s (s.put l.owner u) G (fun m => m.ptr ≠ l.ptr) :=
  free_stayF chunkBytes_seen I hl hc e

theorem register_stayF {α : Type} {F : Mem → Nat → α} (hF : Seen F)
    (I : PInv Ω cl s G) {l : PBlock} {c : Chain} {u : CS Light} (hl : l ∈ G.live)
    (hc : s.chs[l.owner]? = some c) (e : rfqRegister ⟨s.w, c⟩ l.ptr = .ok u) :
    StayF F s (s.put l.owner u) G (fun _ => True) := by
  obtain ⟨H, L, P, B, K⟩ := I
  obtain ⟨g, k, hg, hk, hq, hp, _⟩ := K.live l hl
  have T := B.th _ _ _ hc hg
  obtain ⟨u', e', S, q', _⟩ := rfqRegister_ok (B.at hc hg) T.q hk hq
  rw [hp] at e'
  obtain rfl : u' = u := Outcome.ok.inj (e'.symm.trans e)
  intro m hm _
  obtain ⟨gi, j, hi, hj, hjp⟩ := K.chunk' B hm
  rw [← hjp]
  refine B.stayF hF (B.step hc hg S q') hg hi hj (fun e => ?_)
  rw [e] at hi
  obtain rfl : gi = g := Option.some.inj (hi.symm.trans hg)
  exact hj

theorem register_stay (I : PInv Ω cl s G) {l : PBlock} {c : Chain} {u : CS Light} (hl : l ∈ G.live)
    (hc : s.chs[l.owner]? = some c) (e : rfqRegister ⟨s.w, c⟩ l.ptr = .ok u) :
    Stay s (s.put l.owner u) G (fun _ => True) :=
  register_stayF chunkBytes_seen I hl hc e

theorem store_stayF {α : Type} {F : Mem → Nat → α} (hF : Seen F)
    (I : PInv Ω cl s G) {l : PBlock} {m' : Mem} (hl : l ∈ G.live) (hm : ∀ x, ¬ l.Byte x → m' x = s.w.mem x) :
    StayF F s (s.setMem m') G (fun _ => True) := by
  obtain ⟨H, L, P, B, K⟩ := I
  obtain ⟨g, k, hg, hk, hq, hp, hfit, _⟩ := K.live l hl
  obtain ⟨c, hc, T⟩ := B.getH hg
  have J := B.at hc hg
  have S := J.store hk (m' := m') (fun x hx => hm x (by unfold PBlock.Byte; omega))
  have q' : QAt (CS.setMem ⟨s.w, c⟩ m') g.A g.Q := S.queue J T.q (fun j hj e => hq (e ▸ hj)) ⟨rfl, rfl⟩
  have B' := B.step hc hg S q'
  rw [PS.put_mem hc] at B'
  intro m hm _
  obtain ⟨gi, j, hi, hj, hjp⟩ := K.chunk' B hm
  rw [← hjp]
  refine B.stayF hF B' hg hi hj (fun e => ?_)
  rw [e] at hi
  obtain rfl : gi = g := Option.some.inj (hi.symm.trans hg)
  exact hj

theorem store_stay (I : PInv Ω cl s G) {l : PBlock} {m' : Mem} (hl : l ∈ G.live) (hm : ∀ x, ¬ l.Byte x → m' x = s.w.mem x) :
    Stay s (s.setMem m') G (fun _ => True) :=
  store_stayF chunkBytes_seen I hl hm

theorem realloc_stayF {α : Type} {F : Mem → Nat → α} (hF : Seen F)
    (I : PInv Ω cl s G) {l : PBlock} {c : Chain} {hook n r : Nat} {u : CS Light} (hl : l ∈ G.live)
    (hc : s.chs[l.owner]? = some c) (hf : C.reallocFactor ≠ 0) (hb : GoodBound hook) (hn : n ≠ 0)
    (hsz : PSize (alignedSize hook n)) (hsafe : l.plain = true ∨ n ≤ l.len)
    (e : chainRealloc (lightSource C) C hook ⟨s.w, c⟩ l.ptr n = .ok (u, r)) :
    StayF F s (s.put l.owner u) G (fun m => m.ptr ≠ l.ptr) ∧
    ((r = l.ptr ∧ s.put l.owner u = s ∧ LeftAlone C (chunkBytes s.w.mem l.ptr) n) ∨
      (r ≠ l.ptr ∧ NewChunk (alignedSize hook n) (chunkBytes u.w.mem r))) := by
  obtain ⟨H, L, P, B, K⟩ := I
  obtain ⟨g, k, hg, hk, hq, hp, hfit, hpl⟩ := K.live l hl
  have T := B.th _ _ _ hc hg
  have J := B.at hc hg
  have W := T.ch.wf
  have hu := W.uptr_ge k
  have h16 : l.plain = true → k.uptr = k.addr + 16 := by
    intro h
    simp only [Ck.uptr, Ck.off, hpl h]
  have hkw := (W.has_wf hk.1).ge
  have hrs : ReallocSafe k n := by
    unfold ReallocSafe
    rcases hsafe with h | h
    · rw [h16 h]; omega
    · omega
  rw [← hp] at e ⊢
  rcases srealloc_ok (C := C) J hk hn hf hb hsz.1 hsz.fits hrs with ⟨hkeep, e'⟩ | ⟨_, e'⟩ | ⟨u', d, A', L', e', R⟩
  · obtain ⟨rfl, rfl⟩ := Prod.mk.inj (Outcome.ok.inj (e'.symm.trans e))
    rw [PS.put_self hc]
    refine ⟨fun _ _ _ => rfl, Or.inl ⟨rfl, rfl, ?_⟩⟩
    rw [B.chunkBytes hg hk]
    exact hkeep
  · rw [e'] at e; cases e
  · obtain ⟨rfl, rfl⟩ := Prod.mk.inj (Outcome.ok.inj (e'.symm.trans e))
    have q' : QAt u' A' g.Q := R.step.queue J T.q (fun j hj e => hq (e ▸ hj)) R.queue
    have B' := B.step hc hg R.step q'
    refine ⟨fun m hm hz => ?_, Or.inr ⟨?_, ?_⟩⟩
    · obtain ⟨gi, j, hi, hj, hjp⟩ := K.chunk' B hm
      rw [← hjp]
      refine B.stayF hF B' hg hi hj (fun e => ?_)
      rw [e] at hi
      obtain rfl : gi = g := Option.some.inj (hi.symm.trans hg)
      exact R.step.keep j hj (fun e => hz (by rw [← hjp, e]))
    · intro he
      have h1 := R.disj
      have h2 := R.fit
      have h3 := T.ch.room k hk
      have h4 := R.step.inv.ch.wf.uptr_ge d
      omega
    · have hz : chunkBytes u'.w.mem d.uptr = d.size := B'.chunkBytes (set_get hg) R.usedD
      rw [hz]
      exact newChunk_of hsz (R.step.inv.ch.wf.has_wf R.usedD.1).dvd R.kind

theorem realloc_stay (I : PInv Ω cl s G) {l : PBlock} {c : Chain} {hook n r : Nat} {u : CS Light} (hl : l ∈ G.live)
    (hc : s.chs[l.owner]? = some c) (hf : C.reallocFactor ≠ 0) (hb : GoodBound hook) (hn : n ≠ 0)
    (hsz : PSize (alignedSize hook n)) (hsafe : l.plain = true ∨ n ≤ l.len)
    (e : chainRealloc (lightSource C) C hook ⟨s.w, c⟩ l.ptr n = .ok (u, r)) :
    Stay s (s.put l.owner u) G (fun m => m.ptr ≠ l.ptr) ∧
    ((r = l.ptr ∧ s.put l.owner u = s ∧ LeftAlone C (chunkBytes s.w.mem l.ptr) n) ∨
      (r ≠ l.ptr ∧ NewChunk (alignedSize hook n) (chunkBytes u.w.mem r))) :=
  realloc_stayF chunkBytes_seen I hl hc hf hb hn hsz hsafe e

theorem spawn_stayF {α : Type} {F : Mem → Nat → α} (hF : Seen F)
    (I : PInv Ω cl s G) {s' : PS} {a z pb : Nat} (hv : PValid s G (.spawn a z pb))
    (e : posixSpawn s a z pb = .ok s') : StayF F s s' G (fun _ => True) := by
  obtain ⟨h1, h2, h3, h4⟩ := hv
  obtain ⟨H, L, P, B, K⟩ := I
  have hlow : MB2 < a := by
    by_contra hc
    have := B.resU _ B.low a (Nat.zero_le _) (by simp only; omega)
    rw [h4 a (Nat.le_refl _) (by omega)] at this
    cases this
  have hmem : ∀ x, ¬ PoolAt pb x → s'.w.mem x = s.w.mem x := by
    obtain ⟨u, eb, Iu, eR, eS, _, _, _, _, _, _, _, _, _, _, fr⟩ :=
      chainBaseInit_ok (s.reserve a z).w (addr := a) (pb := pb) false false false (by omega) (by omega)
    have eu : userInit (s.reserve a z).w a pb 0 0 false false false = .ok { u with c := { u.c with hasSrc := false } } := by
      unfold userInit
      rw [eb, Outcome.ok_bind, if_neg (by simp), Outcome.pure_eq, Outcome.ok_bind]
      rfl
    unfold posixSpawn at e
    simp only at e
    rw [eu, Outcome.ok_bind, Outcome.pure_eq] at e
    rw [← Outcome.ok.inj e]
    exact fr
  have hin : ∀ x, PoolAt pb x → s.w.src.os.used x = false := fun x hx =>
    h4 x (by have := hx.1; omega) (by have := hx.2; omega)
  intro l hl _
  obtain ⟨g, k, hg, hk, hp⟩ := K.chunk' B hl
  obtain ⟨c, hc, T⟩ := B.getH hg
  have T' : ChSt g.pb s'.w.mem c g.A := T.ch.congr (by
    rintro x (hx | hx)
    · refine hmem x (fun hn => ?_)
      have := B.resU _ T.pool x hx.1 hx.2
      rw [hin x hn] at this; cases this
    · obtain ⟨d, hd, d1, d2⟩ := segAt_shape.1 hx
      refine hmem x (fun hn => ?_)
      have := (B.lin.good d (List.mem_append_left _ (mem_shapes.2 ⟨_, g, hg, hd⟩))).used x d1 d2
      rw [hin x hn] at this; cases this)
  rw [← hp]
  exact hF T.ch T' hk hk

theorem spawn_stay (I : PInv Ω cl s G) {s' : PS} {a z pb : Nat} (hv : PValid s G (.spawn a z pb))
    (e : posixSpawn s a z pb = .ok s') : Stay s s' G (fun _ => True) :=
  spawn_stayF chunkBytes_seen I hv e

theorem StayF.trans {α : Type} {F : Mem → Nat → α} {s1 s2 : PS} {G1 : PSpec} {Z Z1 Z2 : PBlock → Prop}
    (h1 : StayF F s s1 G Z1) (h2 : StayF F s1 s2 G1 Z2)
    (h : ∀ l ∈ G.live ++ G.pend, Z l → Z1 l ∧ l ∈ G1.live ++ G1.pend ∧ Z2 l) : StayF F s s2 G Z := by
  intro l hl hz
  obtain ⟨a, b, c⟩ := h l hl hz
  rw [h2 l b c, h1 l hl a]

theorem memalign_stayF {α : Type} {F : Mem → Nat → α} (hF : Seen F)
    (I : PInv Ω cl s G) {s' : PS} {t b n r : Nat} (ht : t < s.chs.length) (hb : GoodBound b)
    (hsz : PSize (reqSize b n)) (e : posixMemalign C s t b n = .ok (s', r)) : StayF F s s' (G.drain t) (fun _ => True) := by
  have hc := List.getElem?_eq_getElem ht
  obtain ⟨u, e1, I1, _⟩ := purge_eff (C := C) I hc
  have k1 := purge_stayF hF I hc e1
  unfold posixMemalign at e
  rw [PS.loc_eq hc, Outcome.ok_bind, e1, Outcome.ok_bind] at e
  obtain ⟨⟨v, q⟩, e2, e⟩ := Outcome.bind_eq_ok e
  obtain ⟨rfl, rfl⟩ := Prod.mk.inj (Outcome.ok.inj e)
  have k2 := alloc_stayF hF (C := C) I1 (PS.put_get u ht) hb (show (if n = 0 then 1 else n) ≠ 0 by split <;> omega)
    ((reqSize_eq b n) ▸ hsz) e2
  rw [PS.put_put] at k2
  exact k1.trans k2 (fun l hl _ => ⟨trivial, hl, trivial⟩)

theorem memalign_stay (I : PInv Ω cl s G) {s' : PS} {t b n r : Nat} (ht : t < s.chs.length) (hb : GoodBound b)
    (hsz : PSize (reqSize b n)) (e : posixMemalign C s t b n = .ok (s', r)) : Stay s s' (G.drain t) (fun _ => True) :=
  memalign_stayF chunkBytes_seen I ht hb hsz e

theorem free_op_stayF {α : Type} {F : Mem → Nat → α} (hF : Seen F)
    (I : PInv Ω cl s G) {s' : PS} {t p : Nat} (ht : t < s.chs.length)
    (hp : p = 0 ∨ ∃ l ∈ G.live, l.ptr = p) (e : posixFree C s t p = .ok s') :
    StayF F s s' (G.drain t) (fun l => l.ptr ≠ p ∨ l.owner ≠ t) := by
  have hc := List.getElem?_eq_getElem ht
  obtain ⟨u, e1, I1, _⟩ := purge_eff (C := C) I hc
  have k1 := purge_stayF hF I hc e1
  have hc1 := PS.put_get u ht
  unfold posixFree at e
  rw [PS.loc_eq hc, Outcome.ok_bind, e1, Outcome.ok_bind] at e
  simp only at e
  rcases hp with rfl | ⟨l, hl, rfl⟩
  · rw [if_pos rfl, Outcome.pure_eq] at e
    rw [← Outcome.ok.inj e]
    exact fun l hl _ => k1 l hl trivial
  · have hl1 : l ∈ (G.drain t).live := hl
    obtain ⟨R, b, c, e2, hb, e3, hcz, hc2, e4, hts, I2, hpz⟩ := lookup_eff I1 hl1
    rw [if_neg hpz, e2, Outcome.ok_bind] at e
    simp only at e
    rw [if_neg hb] at e
    have e3' : readLE (s.put t u).w.mem (b + 16) 8 = c.addr := e3
    rw [e3', if_neg hcz] at e
    have e4' : PS.chainAt { w := { (s.put t u).w with regs := R }, chs := (s.put t u).chs } c.addr = .ok l.owner := e4
    rw [e4', Outcome.ok_bind] at e
    have hc3 : ((s.put t u).setRegs R).chs[l.owner]? = some c := hc2
    have e5 := PS.loc_eq hc3
    have e5' : PS.loc { w := { (s.put t u).w with regs := R }, chs := (s.put t u).chs } l.owner =
      .ok ⟨((s.put t u).setRegs R).w, c⟩ := e5
    rw [e5', Outcome.ok_bind] at e
    simp only at e
    have kR : StayF F s ((s.put t u).setRegs R) (G.drain t) (fun _ => True) := k1
    by_cases ho : l.owner = t
    · have hcu : c = u.c := by
        rw [ho] at hc2
        exact Option.some.inj (hc2.symm.trans hc1)
      rw [if_pos (Or.inr (by rw [hcu]))] at e
      obtain ⟨v, e6, e⟩ := Outcome.bind_eq_ok e
      have k3 := free_stayF hF (C := C) I2 hl1 hc3 e6
      rw [Outcome.pure_eq] at e
      rw [← Outcome.ok.inj e]
      refine kR.trans k3 (fun m hm hz => ⟨trivial, hm, fun h => ?_⟩)
      rcases hz with hz | hz
      · exact hz h
      · refine hz ?_
        obtain ⟨_, _, _, _, K⟩ := I2
        rw [ptr_eq_of_nodup K.nodup hm (List.mem_append_left _ hl1) h]
        exact ho
    · have hcu : c.addr ≠ u.c.addr := by
        intro h
        obtain ⟨H, L, P, B, K⟩ := I1
        exact ho (B.addrs _ _ _ _ hc2 hc1 h)
      rw [if_neg (by rw [hts]; simp [hcu])] at e
      obtain ⟨v, e6, e⟩ := Outcome.bind_eq_ok e
      have k3 := register_stayF hF I2 hl1 hc3 e6
      rw [Outcome.pure_eq] at e
      rw [← Outcome.ok.inj e]
      exact kR.trans k3 (fun m hm hz => ⟨trivial, hm, trivial⟩)

theorem free_op_stay (I : PInv Ω cl s G) {s' : PS} {t p : Nat} (ht : t < s.chs.length)
    (hp : p = 0 ∨ ∃ l ∈ G.live, l.ptr = p) (e : posixFree C s t p = .ok s') :
    Stay s s' (G.drain t) (fun l => l.ptr ≠ p ∨ l.owner ≠ t) :=
  free_op_stayF chunkBytes_seen I ht hp e

theorem NewChunk.slack {M b n z : Nat} (h : NewChunk (reqSize b n) z) (hb : b ≤ 1 ∨ b ≤ M) : Slack C M n z := by
  refine Or.inl ⟨_, ?_, ?_, h⟩
  · unfold reqSize; split <;> omega
  · unfold reqSize; split <;> split <;> omega

theorem add_inj {t r n : Nat} {pl : Bool} (I : PInv Ω cl s (G.add t r n pl)) (hr : r ≠ 0) {m : PBlock}
    (hm : m ∈ G.live ++ G.pend) : r ≠ m.ptr := by
  obtain ⟨_, _, _, _, K⟩ := I
  have hnd := K.nodup
  unfold PSpec.add at hnd
  rw [if_neg hr] at hnd
  exact (List.pairwise_cons.1 hnd).1 m hm

theorem inter_stayF {α : Type} {F : Mem → Nat → α} (hF : Seen F)
    (I : PInv Ω cl s G) {s' : PS} {t hook n r : Nat} {l : PBlock} (ht : t < s.chs.length) (hl : l ∈ G.live)
    (hn : n ≠ 0) (hb : GoodBound hook) (hsz : PSize (reqSize hook n)) (hcl : cl → CleanSize (reqSize hook n))
    (e : posixReallocInter C hook s t l.ptr n = .ok (s', r)) :
    StayF F s s' (G.drain t) (fun m => m.ptr ≠ l.ptr ∨ m.owner ≠ t) ∧ NewChunk (reqSize hook n) (chunkBytes s'.w.mem r) := by
  unfold posixReallocInter at e
  rw [if_pos hn, posixMalloc_eq] at e
  rcases memalign_op (C := C) I ht hb hsz hcl with ⟨_, e1⟩ | ⟨s1, q, e1, hr, _, _, I1, _, len1⟩
  · rw [e1] at e; cases e
  have k1 := memalign_stayF (hF.and chunkBytes_seen) I ht hb hsz e1
  have n1 : NewChunk (reqSize hook n) (chunkBytes s1.w.mem q) := memalign_chunk I ht hb hsz e1
  have hl1 : l ∈ ((G.drain t).add t q n (decide (hook ≤ 1))).live := (add_live hr).2 (Or.inr hl)
  have hr1 : (⟨t, q, n, decide (hook ≤ 1)⟩ : PBlock) ∈ ((G.drain t).add t q n (decide (hook ≤ 1))).live :=
    (add_live hr).2 (Or.inl rfl)
  have hpz := I.ptr hl
  have hrp : q ≠ l.ptr := add_inj I1 hr (List.mem_append_left _ hl)
  obtain ⟨z, e2, hz1, hz2⟩ := getSize_op I1 hl1
  have hdj := hz2 _ hr1 hrp
  simp only at hdj
  have hcnt : (if n < z then n else z) = min n z := by split <;> omega
  obtain ⟨m2, e3, cp, f2⟩ := memCopy_ok (m := s1.w.mem) (dst := q) (src := l.ptr) (n := min n z) (by omega)
  have hst : ∀ x, ¬ (⟨t, q, n, decide (hook ≤ 1)⟩ : PBlock).Byte x → m2 x = s1.w.mem x := fun x hx =>
    f2 x (by unfold PBlock.Byte at hx; simp only at hx; omega)
  obtain ⟨I2, _⟩ := store_eff (m' := m2) I1 hr1 hst
  have k2 := store_stayF (hF.and chunkBytes_seen) (m' := m2) I1 hr1 hst
  rw [e1, Outcome.ok_bind] at e
  simp only at e
  rw [if_pos ⟨hr, hpz⟩, e2, Outcome.ok_bind, hcnt, e3, Outcome.ok_bind, Outcome.pure_eq, Outcome.ok_bind, if_pos hpz] at e
  obtain ⟨s3, e4, e⟩ := Outcome.bind_eq_ok e
  rw [Outcome.pure_eq] at e
  obtain ⟨rfl, rfl⟩ := Prod.mk.inj (Outcome.ok.inj e)
  have k3 := free_op_stayF (hF.and chunkBytes_seen) (C := C) I2 (t := t) (p := l.ptr) (show t < s1.chs.length by omega) (Or.inr ⟨l, hl1, rfl⟩) e4
  refine ⟨fun m hm hz => ?_, ?_⟩
  · have hm1 : m ∈ ((G.drain t).add t q n (decide (hook ≤ 1))).live ++ ((G.drain t).add t q n (decide (hook ≤ 1))).pend := by
      rcases List.mem_append.1 hm with h | h
      · exact List.mem_append_left _ ((add_live hr).2 (Or.inr h))
      · exact List.mem_append_right _ (by rw [add_pend]; exact h)
    have hm2 : m ∈ (((G.drain t).add t q n (decide (hook ≤ 1))).drain t).live ++
        (((G.drain t).add t q n (decide (hook ≤ 1))).drain t).pend := by
      rcases List.mem_append.1 hm with h | h
      · exact List.mem_append_left _ ((add_live hr).2 (Or.inr h))
      · refine List.mem_append_right _ (List.mem_filter.2 ⟨by rw [add_pend]; exact h, (List.mem_filter.1 h).2⟩)
    exact congrArg Prod.fst ((k3 m hm2 hz).trans ((k2 m hm1 trivial).trans (k1 m hm trivial)))
  · have h3 := congrArg Prod.snd (k3 _ (List.mem_append_left _ hr1) (Or.inl hrp))
    have h2 := congrArg Prod.snd (k2 _ (List.mem_append_left _ hr1) trivial)
    simp only at h3 h2
    rw [h3, h2]
    exact n1

theorem inter_stay (I : PInv Ω cl s G) {s' : PS} {t hook n r : Nat} {l : PBlock} (ht : t < s.chs.length) (hl : l ∈ G.live)
    (hn : n ≠ 0) (hb : GoodBound hook) (hsz : PSize (reqSize hook n)) (hcl : cl → CleanSize (reqSize hook n))
    (e : posixReallocInter C hook s t l.ptr n = .ok (s', r)) :
    Stay s s' (G.drain t) (fun m => m.ptr ≠ l.ptr ∨ m.owner ≠ t) ∧ NewChunk (reqSize hook n) (chunkBytes s'.w.mem r) :=
  inter_stayF chunkBytes_seen I ht hl hn hb hsz hcl e

end

/-- What the chunks of the blocks hold, with boundaries of at most `M`; if `w` is false, for the blocks obtained without
boundary only. -/
def Slim (C : Config) (w : Prop) (M : Nat) (s : PS) (G : PSpec) : Prop :=
  ∀ l ∈ G.live ++ G.pend, l.plain = true ∨ w → Slack C (if l.plain then 0 else M) l.len (chunkBytes s.w.mem l.ptr)

theorem del_all {G : PSpec} {t p : Nat} {l : PBlock} (h : l ∈ (G.del t p).live ++ (G.del t p).pend) :
    l ∈ G.live ++ G.pend ∧ (l ∈ G.pend ∨ l.ptr ≠ p ∨ l.owner ≠ t) := by
  rcases List.mem_append.1 h with h | h
  · obtain ⟨h1, h2⟩ := del_live.1 h
    exact ⟨List.mem_append_left _ h1, Or.inr (Or.inl h2)⟩
  · rcases List.mem_append.1 h with h | h
    · obtain ⟨h1, h2⟩ := List.mem_filter.1 h
      exact ⟨List.mem_append_left _ h1, Or.inr (Or.inr (of_decide_eq_true h2).2)⟩
    · exact ⟨List.mem_append_right _ h, Or.inl h⟩

section
variable {C : Config} {w : Prop} {M : Nat} {cl : Prop} {s s' : PS} {G G' : PSpec}

theorem PInv.pend_ne (I : PInv Ω cl s G) {l m : PBlock} (hl : l ∈ G.live) (hm : m ∈ G.pend) : m.ptr ≠ l.ptr := by
  obtain ⟨_, _, _, _, K⟩ := I
  exact fun h => (List.pairwise_append.1 K.nodup).2.2 l hl m hm h.symm

theorem Slim.keep (h : Slim C w M s G) {Z : PBlock → Prop} (k : Stay s s' G Z)
    (hG : ∀ l ∈ G'.live ++ G'.pend, l ∈ G.live ++ G.pend ∧ Z l) : Slim C w M s' G' := by
  intro l hl hp
  obtain ⟨h1, h2⟩ := hG l hl
  rw [k l h1 h2]
  exact h l h1 hp

theorem Slim.drain (h : Slim C w M s G) (t : Nat) : Slim C w M s (G.drain t) := by
  refine h.keep (Z := fun _ => True) (fun _ _ _ => rfl) (fun l hl => ⟨?_, trivial⟩)
  rcases List.mem_append.1 hl with hl | hl
  · exact List.mem_append_left _ hl
  · exact List.mem_append_right _ (List.mem_filter.1 hl).1

theorem Slim.add (h : Slim C w M s' G) {t r n b : Nat} (hb : w → b ≤ M) (hn : NewChunk (reqSize b n) (chunkBytes s'.w.mem r)) :
    Slim C w M s' (G.add t r n (decide (b ≤ 1))) := by
  by_cases hr : r = 0
  · unfold PSpec.add; rw [if_pos hr]; exact h
  · intro l hl hp
    rw [add_pend] at hl
    have hl : l = ⟨t, r, n, decide (b ≤ 1)⟩ ∨ l ∈ G.live ++ G.pend := by
      rcases List.mem_append.1 hl with hl | hl
      · rcases (add_live hr).1 hl with hl | hl
        · exact Or.inl hl
        · exact Or.inr (List.mem_append_left _ hl)
      · exact Or.inr (List.mem_append_right _ hl)
    rcases hl with rfl | hl
    · by_cases h1 : b ≤ 1
      · exact hn.slack (Or.inl h1)
      · simp only [decide_eq_false h1] at hp ⊢
        exact hn.slack (Or.inr (hb (hp.resolve_left (by simp))))
    · exact h l hl hp

theorem Slim.alloc (h : Slim C w M s G) (I : PInv Ω cl s G) {t b n r : Nat} (ht : t < s.chs.length) (hb : GoodBound b)
    (hM : w → b ≤ M) (hsz : PSize (reqSize b n)) (e : posixMemalign C s t b n = .ok (s', r)) :
    Slim C w M s' ((G.drain t).add t r n (decide (b ≤ 1))) :=
  ((h.drain t).keep (memalign_stay I ht hb hsz e) (fun _ hl => ⟨hl, trivial⟩)).add hM (memalign_chunk I ht hb hsz e)

theorem Slim.del (h : Slim C w M s G) (I : PInv Ω cl s G) {t : Nat} {l : PBlock} (hl : l ∈ G.live)
    (k : Stay s s' (G.drain t) (fun m => m.ptr ≠ l.ptr ∨ m.owner ≠ t)) : Slim C w M s' ((G.drain t).del t l.ptr) := by
  refine (h.drain t).keep k (fun m hm => ?_)
  obtain ⟨h1, h2⟩ := del_all hm
  exact ⟨h1, h2.elim (fun h => Or.inl (I.pend_ne hl (List.mem_filter.1 h).1)) id⟩

theorem Slim.realloc (h : Slim C w M s G) (I : PInv Ω cl s G) {t hook n r : Nat} {l : PBlock} (ht : t < s.chs.length)
    (hl : l ∈ G.live) (hn : n ≠ 0) (hf : C.reallocFactor ≠ 0) (hb : GoodBound hook) (hM : w → hook ≤ M)
    (hsz : PSize (reqSize hook n)) (hcl : cl → CleanSize (reqSize hook n))
    (hsafe : l.owner ≠ t ∨ l.plain = true ∨ n ≤ l.len)
    (e0 : posixRealloc C hook s t l.ptr n = .ok (s', r)) : Slim C w M s' (G.after (.realloc t l.ptr hook n) r) := by
  have hc := List.getElem?_eq_getElem ht
  obtain ⟨R, b, c, e2, hb0, e3, hcz, hc2, e4, hts, I2, hpz⟩ := lookup_eff I hl
  have hreq : alignedSize hook n = reqSize hook n := by rw [reqSize_eq, if_neg hn]
  unfold posixRealloc at e0
  rw [if_neg hpz, if_neg hn, PS.loc_eq hc, Outcome.ok_bind, e2, Outcome.ok_bind] at e0
  simp only at e0
  rw [if_neg hb0, e3, if_neg hcz] at e0
  have e4' : PS.chainAt { w := { s.w with regs := R }, chs := s.chs } c.addr = .ok l.owner := e4
  rw [e4', Outcome.ok_bind] at e0
  have hc3 : (s.setRegs R).chs[l.owner]? = some c := hc2
  have e5 := PS.loc_eq hc3
  have e5' : PS.loc { w := { s.w with regs := R }, chs := s.chs } l.owner = .ok ⟨(s.setRegs R).w, c⟩ := e5
  rw [e5', Outcome.ok_bind] at e0
  simp only at e0
  have h2 : Slim C w M (s.setRegs R) G := h
  have haft : G.after (.realloc t l.ptr hook n) r = if decide (l.owner = t) = true then
      (if r = l.ptr then { G with live := G.live.map (fun m => if m.ptr = l.ptr then { m with len := n } else m) }
      else (G.del t l.ptr).add t r n (decide (hook ≤ 1)))
      else ((G.drain t).del t l.ptr).add t r n (decide (hook ≤ 1)) := by
    unfold PSpec.after
    simp only
    rw [if_neg hpz, if_neg hn, mine_iff I hl]
  rw [haft]
  by_cases ho : l.owner = t
  · have hcu : c = s.chs[t] := by
      rw [ho] at hc2
      exact Option.some.inj (hc2.symm.trans hc)
    rw [if_pos (Or.inl (by rw [hcu]))] at e0
    obtain ⟨⟨v, q⟩, e6, e0⟩ := Outcome.bind_eq_ok e0
    rw [Outcome.pure_eq] at e0
    obtain ⟨es, rfl⟩ := Prod.mk.inj (Outcome.ok.inj e0)
    have es : s' = (s.setRegs R).put l.owner v := es.symm
    rw [decide_eq_true ho, if_pos rfl]
    obtain ⟨k, h3⟩ := realloc_stay (C := C) I2 hl hc3 hf hb hn (hreq ▸ hsz) (hsafe.resolve_left (not_not.2 ho)) e6
    rw [← es] at k h3
    rcases h3 with ⟨hq, hs, hz⟩ | ⟨hq, hz⟩
    · rw [if_pos hq]
      intro m' hm' hp
      rcases List.mem_append.1 hm' with hm' | hm'
      · obtain ⟨m, hm, rfl⟩ := List.mem_map.1 hm'
        by_cases hml : m.ptr = l.ptr
        · rw [if_pos hml]
          simp only
          rw [hs, hml]
          exact Or.inr hz
        · rw [if_neg hml] at hp ⊢
          have hm := List.mem_append_left G.pend hm
          rw [k m hm hml]
          exact h2 m hm hp
      · have hm : m' ∈ G.live ++ G.pend := List.mem_append_right _ hm'
        rw [k m' hm (I.pend_ne hl hm')]
        exact h2 m' hm hp
    · rw [if_neg hq]
      refine Slim.add (h2.keep k (fun m hm => ?_)) hM ?_
      · obtain ⟨h3, h4⟩ := del_all hm
        refine ⟨h3, fun h => ?_⟩
        rcases h4 with h4 | h4 | h4
        · exact I.pend_ne hl h4 h
        · exact h4 h
        · obtain ⟨_, _, _, _, K⟩ := I
          exact h4 (by rw [ptr_eq_of_nodup K.nodup h3 (List.mem_append_left _ hl) h]; exact ho)
      rw [hreq] at hz
      rw [es]
      exact hz
  · have hcu : c.addr ≠ s.chs[t].addr := by
      intro h
      obtain ⟨H, L, P, B, K⟩ := I
      exact ho (B.addrs _ _ _ _ hc2 hc h)
    rw [if_neg (by rw [hts]; simp [hcu])] at e0
    obtain ⟨k, hz⟩ := inter_stay (C := C) I2 (t := t) ht hl hn hb hsz hcl e0
    rw [decide_eq_false ho, if_neg (by simp)]
    exact (h2.del I2 hl k).add hM hz

theorem Slim.step (hf : C.reallocFactor ≠ 0) (I : PInv Ω cl s G) (h : Slim C w M s G) {op : POp} {r : Nat}
    (hv : PValid s G op) (hcl : cl → CleanOp op) (hM : w → BoundLe M op) (e : pexec C s op = .ok (s', r)) :
    Slim C w M s' (G.after op r) := by
  cases op with
  | spawn a z pb =>
    unfold pexec at e
    simp only at e
    obtain ⟨s1, e1, e⟩ := Outcome.bind_eq_ok e
    rw [Outcome.pure_eq] at e
    obtain ⟨rfl, rfl⟩ := Prod.mk.inj (Outcome.ok.inj e)
    exact h.keep (spawn_stay I hv e1) (fun _ hl => ⟨hl, trivial⟩)
  | malloc t b n => exact h.alloc I hv.1 hv.2.1 hM hv.2.2 e
  | memalign t b n => exact h.alloc I hv.1 hv.2.1 hM hv.2.2 e
  | calloc t b n k =>
    obtain ⟨h1, h2, h3, h4⟩ := hv
    unfold pexec posixCalloc at e
    simp only at e
    rw [Nat.mod_eq_of_lt h3, posixMalloc_eq] at e
    rcases memalign_op (C := C) I h1 h2 h4 hcl with ⟨_, e1⟩ | ⟨s1, q, e1, hr, _, _, I1, _⟩
    · rw [e1] at e; cases e
    have k := h.alloc I h1 h2 hM h4 e1
    rw [e1, Outcome.ok_bind] at e
    simp only at e
    unfold memZero at e
    rw [if_neg hr, Outcome.ok_bind, Outcome.pure_eq] at e
    obtain ⟨rfl, rfl⟩ := Prod.mk.inj (Outcome.ok.inj e)
    exact k.keep (store_stay I1 ((add_live hr).2 (Or.inl rfl)) (fun x hx => by
      unfold PBlock.Byte at hx
      simp only at hx ⊢
      rw [if_neg hx])) (fun _ hl => ⟨hl, trivial⟩)
  | free t p =>
    unfold pexec at e
    simp only at e
    obtain ⟨s1, e1, e⟩ := Outcome.bind_eq_ok e
    rw [Outcome.pure_eq] at e
    obtain ⟨rfl, rfl⟩ := Prod.mk.inj (Outcome.ok.inj e)
    have k := free_op_stay I hv.1 hv.2 e1
    rcases hv.2 with rfl | ⟨l, hl, rfl⟩
    · refine (h.drain t).keep k (fun m hm => ?_)
      obtain ⟨h1, _⟩ := del_all hm
      refine ⟨h1, Or.inl ?_⟩
      obtain ⟨_, _, _, B, K⟩ := I
      obtain ⟨g, c, hg, hc, hp⟩ := K.chunk' B (l := m) (by
        rcases List.mem_append.1 h1 with h1 | h1
        · exact List.mem_append_left _ h1
        · exact List.mem_append_right _ (List.mem_filter.1 h1).1)
      obtain ⟨ch, _, T⟩ := B.getH hg
      have := T.ch.wf.uptr_ge c
      omega
    · exact h.del I hl k
  | realloc t p b n =>
    obtain ⟨h1, h2, h3, h4⟩ := hv
    by_cases hp : p = 0
    · subst hp
      have e : posixMemalign C s t b n = .ok (s', r) := by
        unfold pexec posixRealloc at e
        simp only [if_true] at e
        rw [posixMalloc_eq] at e
        exact e
      unfold PSpec.after
      simp only [if_true]
      exact h.alloc I h1 h2 hM h3 e
    · obtain ⟨l, hl, rfl, hs⟩ := h4.resolve_left hp
      by_cases hn : n = 0
      · subst hn
        have ha : G.after (.realloc t l.ptr b 0) r = (G.drain t).del t l.ptr := by
          unfold PSpec.after; simp only [if_true]; rw [if_neg hp]
        rw [ha]
        unfold pexec posixRealloc at e
        simp only [if_true] at e
        rw [if_neg hp] at e
        obtain ⟨s1, e1, e⟩ := Outcome.bind_eq_ok e
        rw [Outcome.pure_eq] at e
        obtain ⟨rfl, rfl⟩ := Prod.mk.inj (Outcome.ok.inj e)
        exact h.del I hl (free_op_stay I h1 (Or.inr ⟨l, hl, rfl⟩) e1)
      · exact h.realloc I h1 hl hn hf h2 hM h3 hcl (hs.resolve_left hn) e
  | write a v =>
    obtain ⟨l, hl, ha⟩ := hv
    obtain ⟨rfl, rfl⟩ := Prod.mk.inj (Outcome.ok.inj e)
    exact h.keep (store_stay I hl (fun x hx => if_neg (fun h : x = a => hx (by rw [h]; exact ha))))
      (fun _ hl => ⟨hl, trivial⟩)

theorem PReach.slim {X : POp → Prop} (hf : C.reallocFactor ≠ 0) (hX : w → ∀ op, X op → BoundLe M op) (h : PReach C X s G) :
    Slim C w M s G := by
  induction h with
  | init => intro l hl; cases hl
  | @step s s' G op r h hv hx e ih =>
    exact Slim.step hf (h.inv (cl := False) hf False.elim) ih hv False.elim (fun c => hX c _ hx) e

end

theorem PReach.mono {C : Config} {X Y : POp → Prop} {s : PS} {G : PSpec} (hX : ∀ op, X op → Y op) (h : PReach C X s G) :
    PReach C Y s G := by
  induction h with
  | init h1 h2 h3 => exact .init h1 h2 h3
  | step _ hv hx e ih => exact ih.step hv (hX _ hx) e

theorem slim_sum (f : PBlock → Nat) (z : Nat) : ∀ Q : List PBlock, (∀ l ∈ Q, f l ≤ l.len + z) →
    (Q.map f).sum ≤ (Q.map PBlock.len).sum + Q.length * z
  | [], _ => Nat.zero_le _
  | l :: Q, h => by
    have h1 := h l List.mem_cons_self
    have h2 := slim_sum f z Q (fun m hm => h m (List.mem_cons_of_mem _ hm))
    simp only [List.map_cons, List.sum_cons, List.length_cons, Nat.succ_mul]
    omega

/-! ## Properties -/

/-- C83: after any history of calls of the threads, one at a time, the chunk of a block that was obtained without boundary,
live or waiting for its owner, is the one of a new block of the size that the client asked for last (at most 47 bytes more,
or a bloc above 1 MB), or leaves what a resize in place may leave: at most the threshold of `realloc`, and at most the part
of the block given by its factor. Missing: the sizes that do not fit (`PSize`). -/
theorem C83_slack_partial {C : Config} {X : POp → Prop} {s : PS} {G : PSpec} (hf : C.reallocFactor ≠ 0) (h : PReach C X s G)
    {l : PBlock} (hl : l ∈ G.live ++ G.pend) (hp : l.plain = true) : Slack C 0 l.len (chunkBytes s.w.mem l.ptr) := by
  have := h.slim (w := False) (M := 0) hf False.elim l hl (Or.inl hp)
  rwa [if_pos hp] at this

/-- C83, with boundaries of at most `M`. Missing: the sizes that do not fit (`PSize`). -/
theorem C83_bound_partial {C : Config} {X : POp → Prop} {M : Nat} {s : PS} {G : PSpec} (hf : C.reallocFactor ≠ 0)
    (hX : ∀ op, X op → BoundLe M op) (h : PReach C X s G) {l : PBlock} (hl : l ∈ G.live ++ G.pend) :
    Slack C M l.len (chunkBytes s.w.mem l.ptr) := by
  have := h.slim (w := True) hf (fun _ => hX) l hl (Or.inr trivial)
  split at this
  · unfold Slack at this ⊢
    rcases this with ⟨N, h1, h2, h3⟩ | h
    · exact Or.inl ⟨N, h1, by omega, h3⟩
    · exact Or.inr h
  · exact this

/-- C83, the process: the bytes of the blocs and of the cache, which share none, are at most what the client asked for, plus
`keep_mem + keep_max`, plus for each block the greatest boundary, 64 bytes and the greater of 2 MB and the threshold of
`realloc`. Missing: requests that need a chunk of 1 MB (`C78_refuted`), and the sizes that do not fit (`PSize`). -/
theorem C83_bytes_partial {C : Config} {M : Nat} {s : PS} {G : PSpec} (hf : C.reallocFactor ≠ 0)
    (h : PReach C (fun op => CleanOp op ∧ BoundLe M op) s G) :
    ∃ D L, Blocs s.w D ∧ s.w.src.counter = D.length ∧ Cached s.w.mem s.w.src L ∧ (D ++ L).Pairwise NoShare ∧
      ((D ++ L).map Prod.snd).sum ≤ ((G.live ++ G.pend).map PBlock.len).sum +
        (G.live ++ G.pend).length * (max MB2 C.reallocThreshold + M + 64) + C.keepMem + C.keepMax := by
  obtain ⟨D, L, h1, h2, h3, h4, h5⟩ := C82_bytes_partial hf (h.mono (Y := CleanOp) (fun _ h => h.1))
  refine ⟨D, L, h1, h2, h3, h4, ?_⟩
  have hs : ∀ l ∈ G.live ++ G.pend, heldFor s.w.mem l.ptr ≤ l.len + (max MB2 C.reallocThreshold + M + 64) := by
    intro l hl
    have := C83_bound_partial hf (fun _ h => h.2) h hl
    have hM : MB2 = 2097152 := rfl
    unfold heldFor
    rcases this with ⟨N, h1, h2, h3⟩ | h
    · have := h3.le (by omega)
      omega
    · unfold LeftAlone at h
      omega
  have := slim_sum (fun l => heldFor s.w.mem l.ptr) _ _ hs
  omega

/-- Hypotheses of `C83_slack_partial`, `C83_bound_partial` and `C83_bytes_partial`: a thread has a block of 5 MB. -/
example : ∃ s G r, PReach Config.default (fun op => CleanOp op ∧ BoundLe 64 op) s G ∧ G.live = [⟨0, r, 5242880, true⟩] := by
  obtain ⟨s, r, h, hl, _⟩ := sample_block (C := Config.default) (X := fun op => CleanOp op ∧ BoundLe 64 op) (by decide)
    (fun _ _ _ => ⟨trivial, trivial⟩) (n := 5242880) (by omega) (by unfold PSize; omega) (by omega)
    ⟨by show CleanSize (reqSize 0 5242880); unfold CleanSize reqSize; simp, Nat.zero_le _⟩
  exact ⟨s, _, r, h, rfl⟩

end MpcAlloc
