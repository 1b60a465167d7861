import Verif.DefaultChain
import Verif.EggLemmas

/-
Invariant of the process whose threads switch between the chains: lemmas on the egg chain.
-/

namespace MpcAlloc

/-- No free chunk (of at most 2 MB) can hold the request. -/
def AHeap.Lacks (A : AHeap) (b n : Nat) : Prop :=
  ∀ c, A.Has c → c.st = .free → c.size ≤ MB2 → c.size < calcChunkSize (alignedSize b n)

variable {σ : Type}

/-- Result of a call of a user chain, other than a store or a refill. -/
theorem exec_heap {pb : Nat} {s : CS σ} {L : List Block} {B : List (Nat × Nat)} {A : AHeap} {op : Op} (S : Source σ)
    (C : Config) (hf : C.reallocFactor ≠ 0) (H : HInv pb s L B A) (hv : ValidOp pb L B op)
    (hnr : ∀ b z, op ≠ .refill b z) (hnw : ∀ x v, op ≠ .write x v) :
    ∃ h' r, exec S C s op = .ok (s.setHeap h', r) ∧
      (∀ g ∈ A.segs, ∀ x, g.base ≤ x → x < g.base + 32 → h'.mem x = s.w.mem x) ∧
      (∀ b n, op = .alloc b n → (r ≠ 0 → Aligned b r) ∧ (r = 0 → n ≠ 0 → A.Lacks b n)) ∧
      (∀ p b n, op = .realloc p b n → (r ≠ 0 → r ≠ p → Aligned b r) ∧ (r = 0 → n ≠ 0 → A.Lacks b n)) := by
  have W := H.wf
  cases op with
  | refill b z => exact absurd rfl (hnr b z)
  | write x v => exact absurd rfl (hnw x v)
  | alloc b n =>
    obtain ⟨hb, hsz⟩ := hv
    obtain ⟨r, A', hR, W', hs⟩ := alloc_ok S W hb (sizeOK_aligned W H.bufs hsz)
    obtain ⟨h', e1, M1, f1, z1⟩ := hs s H.inv H.src
    refine ⟨h', r, e1, fun g hg x h1 h2 => f1 x (W.base_quiet hg h1 h2), ?_, by rintro _ _ _ ⟨⟩⟩
    rintro _ _ ⟨⟩
    rcases hR with ⟨h0, _, hno⟩ | ⟨c, d, R, rfl, hne⟩
    · exact ⟨fun h => absurd h0 h, fun _ hn => hno hn⟩
    · exact ⟨fun _ => ⟨R.align, R.align16⟩, fun h => absurd h hne⟩
  | free p =>
    by_cases hp : p = 0
    · subst hp
      exact ⟨s.heap, 0, by rw [exec_free, free_null S C s H.inv.dead]; rfl, fun _ _ _ _ _ => rfl, by rintro _ _ ⟨⟩,
        by rintro _ _ _ ⟨⟩⟩
    · obtain ⟨l, hl, rfl⟩ := hv.resolve_left hp
      obtain ⟨c, hc, h1, h2, _⟩ := H.live.used l hl
      obtain ⟨A', R, _, hs⟩ := free_ok S C W hc s.c.noMerge
      obtain ⟨h', e1, M1, f1⟩ := hs s H.inv H.src rfl
      refine ⟨h', 0, by rw [exec_free, ← h1, e1]; rfl, fun g hg x g1 g2 => f1 x (W.base_quiet hg g1 g2) ?_, by rintro _ _ ⟨⟩,
        by rintro _ _ _ ⟨⟩⟩
      obtain ⟨t, ht, hct⟩ := hc.1
      have hb := (W.seg t ht).bounds hct
      by_cases e : g = t
      · subst e; omega
      · have := W.seg_disj hg ht e
        have := (W.seg g hg).ge
        omega
  | realloc p b n =>
    obtain ⟨hb, hsz, hp'⟩ := hv
    by_cases hp : p = 0
    · subst hp
      obtain ⟨r, A', hR, W', hs⟩ := alloc_ok S W hb (sizeOK_aligned W H.bufs hsz)
      obtain ⟨h', e1, M1, f1, z1⟩ := hs s H.inv H.src
      refine ⟨h', r, ?_, fun g hg x h1 h2 => f1 x (W.base_quiet hg h1 h2), by rintro _ _ ⟨⟩, ?_⟩
      · rw [← e1]; exact chainRealloc_null S C b s n H.inv.dead
      · rintro _ _ _ ⟨⟩
        rcases hR with ⟨h0, _, hno⟩ | ⟨c, d, R, rfl, hne⟩
        · exact ⟨fun h => absurd h0 h, fun _ hn => hno hn⟩
        · exact ⟨fun _ _ => ⟨R.align, R.align16⟩, fun h => absurd h hne⟩
    obtain ⟨l, hl, rfl, hcond⟩ := hp'.resolve_left hp
    obtain ⟨c, hc, h1, h2, h3⟩ := H.live.used l hl
    have hout : ∀ g ∈ A.segs, ∀ x, g.base ≤ x → x < g.base + 32 → x < c.addr ∨ c.addr + c.size ≤ x := by
      intro g hg x g1 g2
      obtain ⟨t, ht, hct⟩ := hc.1
      have hb := (W.seg t ht).bounds hct
      by_cases e : g = t
      · subst e; omega
      · have := W.seg_disj hg ht e
        have := (W.seg g hg).ge
        omega
    by_cases hn : n = 0
    · subst hn
      obtain ⟨A', R, _, hs⟩ := free_ok S C W hc s.c.noMerge
      obtain ⟨h', e1, M1, f1⟩ := hs s H.inv H.src rfl
      refine ⟨h', 0, ?_, fun g hg x g1 g2 => f1 x (W.base_quiet hg g1 g2) (hout g hg x g1 g2), by rintro _ _ ⟨⟩, ?_⟩
      · show chainRealloc S C b s l.ptr 0 = _
        rw [chainRealloc_zero S C b s hp, ← h1, e1]; rfl
      · rintro _ _ _ ⟨⟩
        exact ⟨fun h => absurd rfl h, fun _ h => absurd rfl h⟩
    · have hwf := W.has_wf hc.1
      have hge := hwf.ge
      have hup := W.uptr_ge c
      have hsafe : ReallocSafe c n := by
        rcases hcond with h | h | h
        · exact absurd h hn
        · exact reallocSafe_unpadded n (h3 h) (by omega)
        · unfold ReallocSafe; omega
      obtain ⟨r, A', hR, W', hna', hsh, hs⟩ := realloc_ok S C W hc hb hn (sizeOK_aligned W H.bufs hsz) hf hsafe s.c.noMerge
      obtain ⟨h', e1, M1, f1, cp, kp⟩ := hs s H.inv H.src rfl
      refine ⟨h', r, ?_, fun g hg x g1 g2 => f1 x (W.base_quiet hg g1 g2) (hout g hg x g1 g2), by rintro _ _ ⟨⟩, ?_⟩
      · unfold exec; simp only; rw [← h1]; exact e1
      · rintro _ _ _ ⟨⟩
        cases hR with
        | keep hk => exact ⟨fun _ h => absurd h1 h, fun h _ => by omega⟩
        | fail hk hno RF => exact ⟨fun h => absurd rfl h, fun _ _ => hno⟩
        | @move A1 A' c0 d hk R RF hne => exact ⟨fun _ _ => ⟨R.align, R.align16⟩, fun h => absurd h hne⟩

/-- One call of a user chain, other than a store or a refill. -/
theorem HInv.step {pb : Nat} {s : CS σ} {L : List Block} {B : List (Nat × Nat)} {A : AHeap} {op : Op} (S : Source σ)
    (C : Config) (hf : C.reallocFactor ≠ 0) (H : HInv pb s L B A) (hv : ValidOp pb L B op)
    (hnr : ∀ b z, op ≠ .refill b z) (hnw : ∀ x v, op ≠ .write x v) :
    ∃ h' r A', exec S C s op = .ok (s.setHeap h', r) ∧ HInv pb (s.setHeap h') (account L op r) B A' ∧
      Frame pb op r L (account L op r) B s.w.mem h'.mem ∧
      (∀ g ∈ A.segs, ∀ x, g.base ≤ x → x < g.base + 32 → h'.mem x = s.w.mem x) ∧
      (∀ b n, op = .alloc b n → (r ≠ 0 → Aligned b r) ∧ (r = 0 → n ≠ 0 → A.Lacks b n)) ∧
      (∀ p b n, op = .realloc p b n → (r ≠ 0 → r ≠ p → Aligned b r) ∧ (r = 0 → n ≠ 0 → A.Lacks b n)) := by
  obtain ⟨h', r, e, h1, h2, h3⟩ := exec_heap S C hf H hv hnr hnw
  obtain ⟨r', A', hs⟩ := step_ok S C hf H.wf H.bufs H.live hv s.c.noMerge H.noAdj
  obtain ⟨s', e', H', _, _, _, _, _, F⟩ := hs s H rfl (by cases op <;> first | trivial | exact absurd rfl (hnr _ _))
  rw [e] at e'
  obtain ⟨rfl, rfl⟩ := Prod.mk.inj (Outcome.ok.inj e')
  have hB : accountBufs B op = B := by cases op <;> first | rfl | exact absurd rfl (hnr _ _)
  rw [hB] at H' F
  exact ⟨h', r, A', e, H', F, h1, h2, h3⟩

/-- The size of a block may be lowered. -/
theorem HInv.shrink {pb : Nat} {s : CS σ} {L : List Block} {B : List (Nat × Nat)} {A : AHeap} {r n n' : Nat} {pl : Bool}
    (H : HInv pb s (⟨r, n', pl⟩ :: L) B A) (h : n ≤ n') : HInv pb s (⟨r, n, pl⟩ :: L) B A := by
  refine ⟨H.wf, H.inv, H.src, H.bufs, ⟨H.live.nodup, ?_, ?_⟩, H.noAdj, H.regs, H.based⟩
  · intro l hl
    rcases List.mem_cons.1 hl with rfl | hl
    · obtain ⟨c, h1, h2, h3, h4⟩ := H.live.used _ List.mem_cons_self
      exact ⟨c, h1, h2, by simp only at h3 ⊢; omega, h4⟩
    · exact H.live.used l (List.mem_cons_of_mem _ hl)
  · intro c hc
    obtain ⟨l, hl, e⟩ := H.live.all c hc
    rcases List.mem_cons.1 hl with rfl | hl
    · exact ⟨_, List.mem_cons_self, e⟩
    · exact ⟨l, List.mem_cons_of_mem _ hl, e⟩

/-- Blocks of a part of the blocks, after a call. -/
theorem account_sub {E L : List Block} (h : E.Sublist L) (op : Op) (r : Nat) : (account E op r).Sublist (account L op r) := by
  cases op with
  | alloc b n => unfold account; simp only; split <;> [exact h; exact h.cons_cons _]
  | free p => exact h.filter _
  | realloc p b n =>
    unfold account
    simp only
    split
    · split <;> [exact h; exact h.cons_cons _]
    · split
      · exact h.filter _
      · split
        · exact h.map _
        · exact (h.filter _).cons_cons _
  | refill b z => exact h
  | write x v => exact h

variable {Ω : Env}

/-- Invariant: the process with the egg chain (`EInv`), the contents of the egg chain that the calls rely on, and the blocks
that it gave to the client, apart from the structures of the threads. -/
structure CInv (e : ES) (G : SwSpec) (a buf : Nat) (Ω : Env) (A : AHeap) (Lb : List Block) : Prop where
  ei : EInv False e G.P a buf Ω A Lb
  addr : e.egg.addr = a
  ts : e.egg.threadSafe = true
  rfq : e.egg.rfqHead = 0
  base : e.egg.base = buf
  low : MB2 < buf
  own : readLE e.p.w.mem (buf + 16) 8 = a
  sub : G.E.Sublist Lb
  apart : ∀ l ∈ G.E, ∀ t ∈ Ω.ths, l.ptr ≠ t.1

variable {e : ES} {G : SwSpec} {a buf : Nat} {A : AHeap} {Lb : List Block}

/-- The chunk of the block of a structure is not that of a block of the client. -/
theorem CInv.mineE (I : CInv e G a buf Ω A Lb) {l : Block} (hl : l ∈ G.E) {x : Nat} (hx : l.Byte x) : Ω.mine x := by
  have W := I.ei.h.wf
  have hL := I.sub.subset hl
  refine (I.ei.mine x).2 ⟨Or.inr (I.ei.seg.1 (W.user_seg (I.ei.h.live.mem W hL hx))), fun t ht => ?_⟩
  obtain ⟨_, l', hl', e1, e2⟩ := I.ei.ths t ht
  obtain ⟨c, hc, c1, c2, _⟩ := I.ei.h.live.used l' hl'
  have := other_block W I.ei.h.live hc hL (by rw [c1, e1]; exact I.apart l hl t ht) hx
  have := W.uptr_ge c
  omega

/-- The header of the bloc of the egg chain. -/
theorem EInv.base {cl : Prop} {P : PSpec} (I : EInv cl e P a buf Ω A Lb) : ∃ g ∈ A.segs, g.base = buf ∧ g.size = MB2 := by
  obtain ⟨sg, hsg, sg1⟩ : ∃ g ∈ A.segs, (g.base, g.size) = (buf, MB2) := mem_shape.1 (by rw [I.h.bufs]; simp)
  exact ⟨sg, hsg, congrArg Prod.fst sg1, congrArg Prod.snd sg1⟩

theorem EInv.hdr_meta {cl : Prop} {P : PSpec} (I : EInv cl e P a buf Ω A Lb) {x : Nat} (h1 : buf ≤ x) (h2 : x < buf + 32) :
    A.Meta a x := by
  refine Or.inr ⟨I.seg.2 ⟨h1, by omega⟩, ?_⟩
  rintro ⟨c, hc, u1, u2⟩
  obtain ⟨d, hd, d1, d2⟩ := seg_of_has I.h.wf hc.1
  rw [I.h.bufs, List.mem_singleton] at hd
  subst hd
  have := I.h.wf.uptr_ge c
  simp only at d1
  omega

/-- The chains of the threads are not at the address of the egg chain. -/
theorem CInv.addr_ne (I : CInv e G a buf Ω A Lb) {i : Nat} {c : Chain} (hc : e.p.chs[i]? = some c) : c.addr ≠ a := by
  obtain ⟨H, L, D, B, _⟩ := I.ei.p
  have hm : c.addr ∈ Ω.ths.map Prod.fst := by
    have := B.env.addrs
    exact this ▸ List.mem_map_of_mem (List.mem_of_getElem? hc)
  obtain ⟨t, ht, e1⟩ := List.mem_map.1 hm
  have h1 := I.ei.h.wf.user_seg (I.ei.user ht (x := t.1) (Nat.le_refl _) (by unfold CHAIN_SIZE; omega))
  intro h
  exact I.ei.h.wf.pool_seg h1 ⟨by omega, by omega⟩

/-- A step of the chains of the threads. -/
theorem CInv.ofP (I : CInv e G a buf Ω A Lb) {p' : PS} {P' : PSpec} (h : PInv Ω False p' P') :
    CInv ⟨p', e.egg⟩ { G with P := P' } a buf Ω A Lb ∧
      ∀ l ∈ G.E, ∀ x, l.Byte x → p'.w.mem x = e.p.w.mem x := by
  have hmine : ∀ x, Ω.mine x → p'.w.mem x = e.p.w.mem x := fun x hx => (h.val hx).trans (I.ei.p.val hx).symm
  refine ⟨⟨⟨h, ?_, I.ei.blocs, I.ei.mine, I.ei.ths, I.ei.disj, I.ei.high⟩, I.addr, I.ts, I.rfq, I.base, I.low, ?_, I.sub, I.apart⟩, ?_⟩
  · exact I.ei.h.congrW (fun x hx => hmine x (I.ei.meta_mine hx)) h.regsOK
  · rw [← I.own]
    exact readLE_congr (fun x h1 h2 => hmine x (I.ei.meta_mine (I.ei.hdr_meta (by omega) (by omega))))
  · exact fun l hl x hx => hmine x (I.mineE hl hx)

/-- Stores in a block of the egg chain. -/
theorem CInv.storeE (I : CInv e G a buf Ω A Lb) {l : Block} {m' : Mem} (hl : l ∈ G.E)
    (hm : ∀ x, ¬ l.Byte x → m' x = e.p.w.mem x) :
    CInv (e.setMem m') G a buf { Ω with val := m' } A Lb ∧ Keeps e.p (e.p.setMem m') G.P (fun _ => True) := by
  have W := I.ei.h.wf
  have hq : ∀ x, ¬ Ω.mine x → m' x = e.p.w.mem x := fun x hx => hm x (fun h => hx (I.mineE hl h))
  have hmeta : ∀ x, A.Meta a x → m' x = e.p.w.mem x := by
    intro x hx
    refine hm x (fun h => ?_)
    have hu := I.ei.h.live.mem W (I.sub.subset hl) h
    rcases hx with g | g
    · exact W.pool_seg (W.user_seg hu) g
    · exact g.2 hu
  obtain ⟨I1, k1⟩ := I.ei.p.setEnv hq (fun d hd => by
    rw [I.ei.blocs, List.mem_singleton] at hd
    subst hd
    exact readLE_congr (fun x h1 h2 => hmeta x (I.ei.hdr_meta (by simp only at h1; omega) (by simp only at h2; omega))))
  refine ⟨⟨⟨I1, ?_, I.ei.blocs, I.ei.mine, I.ei.ths, I.ei.disj, I.ei.high⟩, I.addr, I.ts, I.rfq, I.base, I.low, ?_, I.sub, I.apart⟩, k1⟩
  · exact I.ei.h.congrW (w' := { e.p.w with mem := m' }) hmeta I.ei.h.regs
  · rw [← I.own]
    exact readLE_congr (fun x h1 h2 => hmeta x (I.ei.hdr_meta (by omega) (by omega)))

/-- A call on the egg chain that concerns a block of the client. -/
theorem CInv.eggOp {C : Config} (hf : C.reallocFactor ≠ 0) (I : CInv e G a buf Ω A Lb) {op : Op}
    (hv : ValidOp a G.E [(buf, MB2)] op) (hnr : ∀ b z, op ≠ .refill b z) (hnw : ∀ x v, op ≠ .write x v) :
    ∃ u r Ω' A', exec (lightSource C) C ⟨e.p.w, e.egg⟩ op = .ok (u, r) ∧
      CInv (e.put .egg u) { G with E := account G.E op r } a buf Ω' A' (account Lb op r) ∧ Ω'.ths = Ω.ths ∧
      u.w.src = e.p.w.src ∧ u.c.addr = a ∧
      Keeps e.p (e.put .egg u).p G.P (fun _ => True) ∧
      (∀ l ∈ G.E, (∃ l' ∈ account G.E op r, l'.ptr = l.ptr) → ∀ x, l.Byte x → u.w.mem x = e.p.w.mem x) ∧
      (∀ p b n, op = .realloc p b n → r ≠ 0 → ∀ l ∈ G.E, l.ptr = p → ∀ i, i < min l.len n →
        u.w.mem (r + i) = e.p.w.mem (p + i)) ∧
      (∀ b n, op = .alloc b n → (r ≠ 0 → Aligned b r) ∧ (r = 0 → n ≠ 0 → A.Lacks b n)) ∧
      (∀ p b n, op = .realloc p b n → (r ≠ 0 → r ≠ p → Aligned b r) ∧ (r = 0 → n ≠ 0 → A.Lacks b n)) := by
  have W := I.ei.h.wf
  have hsub := I.sub.subset
  have hvL : ValidOp a Lb [(buf, MB2)] op := by
    cases op with
    | alloc b n => exact hv
    | free p => exact hv.imp id (fun ⟨l, hl, h⟩ => ⟨l, hsub hl, h⟩)
    | realloc p b n => exact ⟨hv.1, hv.2.1, hv.2.2.imp id (fun ⟨l, hl, h⟩ => ⟨l, hsub hl, h⟩)⟩
    | refill b z => exact absurd rfl (hnr b z)
    | write x v => exact absurd rfl (hnw x v)
  obtain ⟨h', r, A', ex, H', F, hdr, al1, al2⟩ := I.ei.h.step (lightSource C) C hf hvL hnr hnw
  have hsub' := account_sub I.sub op r
  -- pointers of the op
  have hnw' : ∀ x v, op ≠ .write x v := hnw
  -- the blocks of the structures stay
  have hstay : ∀ l0 ∈ Lb, (∀ l ∈ G.E, l.ptr ≠ l0.ptr) → l0 ∈ account Lb op r := by
    intro l0 h0 hne
    have hz : l0.ptr ≠ 0 := by
      obtain ⟨c, hc, c1, _⟩ := I.ei.h.live.used l0 h0
      have := W.uptr_ge c
      have := W.has_range hc.1
      omega
    cases op with
    | alloc b n => unfold account; simp only; split <;> simp [h0]
    | free p =>
      unfold account
      refine List.mem_filter.2 ⟨h0, ?_⟩
      rcases hv with rfl | ⟨l, hl, rfl⟩
      · simpa using hz
      · simpa using (hne l hl).symm
    | realloc p b n =>
      have hp : p = 0 ∨ p ≠ 0 ∧ l0.ptr ≠ p := by
        rcases hv.2.2 with h | ⟨l, hl, h, _⟩
        · exact Or.inl h
        · by_cases hp : p = 0
          · exact Or.inl hp
          · exact Or.inr ⟨hp, by rw [← h]; exact (hne l hl).symm⟩
      unfold account
      simp only
      rcases hp with hp | ⟨hp, hlp⟩
      · rw [if_pos hp]; split <;> simp [h0]
      · rw [if_neg hp]
        split
        · exact List.mem_filter.2 ⟨h0, by simpa using hlp⟩
        · split
          · exact List.mem_map.2 ⟨l0, h0, by rw [if_neg hlp]⟩
          · exact List.mem_cons_of_mem _ (List.mem_filter.2 ⟨h0, by simpa using hlp⟩)
    | refill b z => exact absurd rfl (hnr b z)
    | write x v => exact absurd rfl (hnw x v)
  have hths : ∀ t ∈ Ω.ths, t.2 = t.1 ∧ ∃ l ∈ account Lb op r, l.ptr = t.1 ∧ l.len = CHAIN_SIZE := by
    intro t ht
    obtain ⟨h1, l, hl, h2, h3⟩ := I.ei.ths t ht
    exact ⟨h1, l, hstay l hl (fun l' hl' => by rw [h2]; exact I.apart l' hl' t ht), h2, h3⟩
  -- what is not the memory of the environment is not written
  have hq : ∀ x, ¬ Ω.mine x → h'.mem x = e.p.w.mem x := by
    intro x hx
    by_cases ht : ∃ t ∈ Ω.ths, t.1 ≤ x ∧ x < t.1 + CHAIN_SIZE
    · obtain ⟨t, ht, h1, h2⟩ := ht
      obtain ⟨_, l, hl, e1, e2⟩ := I.ei.ths t ht
      exact F.live hnw l hl ⟨l, hstay l hl (fun l' hl' => by rw [e1]; exact I.apart l' hl' t ht), rfl⟩ x
        ⟨by omega, by omega⟩
    · have hout : ¬ (PoolAt a x ∨ (buf ≤ x ∧ x < buf + MB2)) := by
        intro hc
        refine hx ((I.ei.mine x).2 ⟨hc, fun t ht' => ?_⟩)
        by_contra hcc
        exact ht ⟨t, ht', by omega, by omega⟩
      exact F.out x (fun h => hout (Or.inl h)) (fun y hy => by
        rw [List.mem_singleton] at hy; subst hy; exact fun h => hout (Or.inr h))
  obtain ⟨sg, hsg, sb, _⟩ := I.ei.base
  have hhdr : ∀ x, buf ≤ x → x < buf + 32 → h'.mem x = e.p.w.mem x := fun x h1 h2 => hdr sg hsg x (by omega) (by omega)
  obtain ⟨I1, k1⟩ := I.ei.p.setEnv hq (fun d hd => by
    rw [I.ei.blocs, List.mem_singleton] at hd
    subst hd
    exact readLE_congr (fun x h1 h2 => hhdr x h1 (by simp only at h2; omega)))
  refine ⟨_, r, { Ω with val := h'.mem }, A', ex, ⟨⟨I1, H', I.ei.blocs, I.ei.mine, hths, I.ei.disj, I.ei.high⟩, I.addr, I.ts,
    I.rfq, I.base, I.low, ?_, hsub', ?_⟩, rfl, rfl, I.addr, k1, ?_, ?_, al1, al2⟩
  · rw [← I.own]
    exact readLE_congr (fun x h1 h2 => hhdr x (by omega) (by omega))
  · intro l hl t ht he
    -- a new block is not that of a structure
    have hnd := H'.live.nodup
    obtain ⟨_, l0, hl0, h2, h3⟩ := I.ei.ths t ht
    have hold : ∀ l ∈ G.E, l.ptr ≠ l0.ptr := fun l' hl' => by rw [h2]; exact I.apart l' hl' t ht
    have hl0' := hstay l0 hl0 hold
    have hnew : l0.ptr ≠ r ∨ r = 0 ∨ ∃ l' ∈ G.E, l'.ptr = r := by
      by_cases hr : r = 0
      · exact Or.inr (Or.inl hr)
      left
      intro hlr
      have hz : l0.ptr ≠ 0 := by rw [hlr]; exact hr
      cases op with
      | alloc b n =>
        unfold account at hnd
        simp only [if_neg hr, List.map_cons, List.nodup_cons] at hnd
        exact hnd.1 (List.mem_map.2 ⟨l0, hl0, hlr⟩)
      | free p =>
        rw [exec_free] at ex
        obtain ⟨u, _, ex⟩ := Outcome.bind_eq_ok ex
        exact hr (Prod.mk.inj (Outcome.ok.inj ex)).2.symm
      | realloc p b n =>
        have hp : p = 0 ∨ p ≠ 0 ∧ l0.ptr ≠ p := by
          rcases hv.2.2 with h | ⟨l, hl, h, _⟩
          · exact Or.inl h
          · by_cases hp : p = 0
            · exact Or.inl hp
            · exact Or.inr ⟨hp, by rw [← h]; exact (hold l hl).symm⟩
        unfold account at hnd
        simp only [if_neg hr] at hnd
        rcases hp with hp | ⟨hp, hlp⟩
        · rw [if_pos hp, List.map_cons, List.nodup_cons] at hnd
          exact hnd.1 (List.mem_map.2 ⟨l0, hl0, hlr⟩)
        · rw [if_neg hp, if_neg (by rw [← hlr]; exact hlp), List.map_cons, List.nodup_cons] at hnd
          exact hnd.1 (List.mem_map.2 ⟨l0, List.mem_filter.2 ⟨hl0, by simpa using hlp⟩, hlr⟩)
      | refill b z => exact absurd rfl (hnr b z)
      | write x v => exact absurd rfl (hnw x v)
    have hlr : l.ptr = r ∧ r ≠ 0 ∨ ∃ l' ∈ G.E, l'.ptr = l.ptr := by
      cases op with
      | alloc b n =>
        unfold account at hl
        simp only at hl
        split at hl
        · exact Or.inr ⟨l, hl, rfl⟩
        · rename_i hr
          rcases List.mem_cons.1 hl with rfl | hl
          · exact Or.inl ⟨rfl, hr⟩
          · exact Or.inr ⟨l, hl, rfl⟩
      | free p => exact Or.inr ⟨l, (List.mem_filter.1 hl).1, rfl⟩
      | realloc p b n =>
        unfold account at hl
        simp only at hl
        split at hl
        · split at hl
          · exact Or.inr ⟨l, hl, rfl⟩
          · rename_i hr
            rcases List.mem_cons.1 hl with rfl | hl
            · exact Or.inl ⟨rfl, hr⟩
            · exact Or.inr ⟨l, hl, rfl⟩
        · split at hl
          · exact Or.inr ⟨l, (List.mem_filter.1 hl).1, rfl⟩
          · rename_i hr
            split at hl
            · obtain ⟨l1, hl1, rfl⟩ := List.mem_map.1 hl
              exact Or.inr ⟨l1, hl1, by split <;> rfl⟩
            · rcases List.mem_cons.1 hl with rfl | hl
              · exact Or.inl ⟨rfl, hr⟩
              · exact Or.inr ⟨l, (List.mem_filter.1 hl).1, rfl⟩
      | refill b z => exact absurd rfl (hnr b z)
      | write x v => exact absurd rfl (hnw x v)
    rcases hlr with ⟨h5, h6⟩ | ⟨l', hl', h5⟩
    · rcases hnew with h | h | ⟨l', hl', h⟩
      · exact h (by rw [h2, ← he, h5])
      · exact h6 h
      · exact I.apart l' hl' t ht (by rw [h, ← h5, he])
    · exact I.apart l' hl' t ht (by rw [h5, he])
  · intro l hl ⟨l', hl', hp⟩ x hx
    exact F.live hnw l (hsub hl) ⟨l', hsub'.subset hl', hp⟩ x hx
  · intro p b n h hr l hl hp i hi
    exact F.copy p b n h hr l (hsub hl) hp i hi

end MpcAlloc
