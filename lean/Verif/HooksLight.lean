import Verif.HooksSource
import Verif.PosixInv

/-
The observer over a chain fed by the light source: histories with their events.
-/

namespace MpcAlloc.Hooks

open OnNode

/-- A chain linked to a source: `nodeChain` of ConcSource.lean (sctk_alloc_on_node.c 76-86) with the flags of the chain left free. -/
def sourceChain {σ : Type} (w : World σ) (addr pb : Nat) (ts nm : Bool) : Outcome (CS σ) :=
  userInit w addr pb 0 0 ts nm false >>= fun s => .ok { s with c := { s.c with hasSrc := true } }

/-- `sctk_alloc_chain_remote_free`, sctk_allocator.c 2857-2863: it sends no event of its own. -/
def remoteFreeH {σ : Type} (H : Tab) (S : Source σ) (C : Config) (s : CS σ) (ptr : Nat) : Outcome (CS σ × List Ev) :=
  if s.c.dead then .ub
  else if s.c.threadSafe then chainFreeH H S C s ptr
  else rfqRegister s ptr >>= fun s => .ok (s, [])

/-- Histories of one chain fed by the light source, with its live blocks, the blocks in the queue of the remote frees and the
events sent so far, the oldest first. Every call ends; blocks with a boundary may not grow by realloc (finding 5 of
DESIGN.md). -/
inductive STrace (H : Tab) (C : Config) (addr pb : Nat) : CS Light → List Blk → List Blk → List Ev → Prop
  | init {m : Mem} {R : Regions} {o : Os} {s : CS Light} {ts nm : Bool} : R.OK → (∀ i, R.ent i = 0) →
      (∀ x, x ≤ MB2 → o.used x = true) → 0 < pb → pb + 1536 < W64 →
      (∀ x, pb ≤ x → x < pb + 1536 → o.used x = true) →
      sourceChain ⟨m, R, Light.init o⟩ addr pb ts nm = .ok s → STrace H C addr pb s [] [] []
  | alloc {s s' : CS Light} {L Q : List Blk} {T e : List Ev} {b n r : Nat} : STrace H C addr pb s L Q T →
      GoodBound b → n ≠ 0 → PSize (reqSize b n) → allocAlignH H (lightSource C) s b n = .ok (s', r, e) →
      STrace H C addr pb s' (⟨r, n, b⟩ :: L) Q (T ++ e)
  | free {s s' : CS Light} {L Q : List Blk} {T e : List Ev} {l : Blk} : STrace H C addr pb s L Q T → l ∈ L →
      chainFreeH H (lightSource C) C s l.ptr = .ok (s', e) →
      STrace H C addr pb s' (L.filter (fun k => k.ptr != l.ptr)) Q (T ++ e)
  | realloc {s s' : CS Light} {L Q : List Blk} {T e : List Ev} {l : Blk} {b n r : Nat} : STrace H C addr pb s L Q T → l ∈ L →
      GoodBound b → n ≠ 0 → PSize (reqSize b n) → (l.bound ≤ 1 ∨ n ≤ l.len) →
      chainReallocH H (lightSource C) C b s l.ptr n = .ok (s', r, e) →
      STrace H C addr pb s' (⟨r, n, if r = l.ptr then l.bound else b⟩ :: L.filter (fun k => k.ptr != l.ptr)) Q (T ++ e)
  | remote {s s' : CS Light} {L Q : List Blk} {T e : List Ev} {l : Blk} : STrace H C addr pb s L Q T → l ∈ L →
      remoteFreeH H (lightSource C) C s l.ptr = .ok (s', e) →
      STrace H C addr pb s' (L.filter (fun k => k.ptr != l.ptr)) (if s.c.threadSafe then Q else Q ++ [l]) (T ++ e)
  | purge {s s' : CS Light} {L Q : List Blk} {T e : List Ev} : STrace H C addr pb s L Q T →
      purgeRfqH H (lightSource C) C s = .ok (s', e) → STrace H C addr pb s' L [] (T ++ e)
  | write {s : CS Light} {L Q : List Blk} {T : List Ev} {l : Blk} {a : Nat} {v : UInt8} : STrace H C addr pb s L Q T → l ∈ L →
      l.Byte a → STrace H C addr pb (s.setMem (fun x => if x = a then v else s.w.mem x)) L Q T

/-- The table `t` of the observer and the live blocks `L`. -/
structure SView (A : AHeap) (L : List Blk) (t : List (Nat × Nat)) : Prop where
  live : ∀ l ∈ L, ∃ c, A.Used c ∧ c.uptr = l.ptr ∧ l.ptr + l.len ≤ c.addr + c.size ∧ (l.bound ≤ 1 → c.st = .used none) ∧
    (l.ptr, c.size) ∈ t
  dist : L.Pairwise (fun l l' => l.ptr ≠ l'.ptr)
  back : ∀ x ∈ t, ∃ l ∈ L, l.ptr = x.1
  keys : (t.map Prod.fst).Nodup

theorem SView.nil (A : AHeap) : SView A [] [] :=
  ⟨fun _ h => (by cases h), List.Pairwise.nil, fun _ h => (by cases h), List.nodup_nil⟩

theorem SView.del {A A' : AHeap} {L : List Blk} {t : List (Nat × Nat)} {p : Nat} (V : SView A L t)
    (h : ∀ c, A.Used c → c.uptr ≠ p → A'.Used c) :
    SView A' (L.filter (fun k => k.ptr != p)) (t.filter (fun x => x.1 != p)) := by
  refine ⟨?_, V.dist.filter _, ?_, ?_⟩
  · intro l hl
    obtain ⟨hl, hp⟩ := List.mem_filter.1 hl
    have hp : l.ptr ≠ p := by simpa using hp
    obtain ⟨c, h1, h2, h3, h4, h5⟩ := V.live l hl
    exact ⟨c, h c h1 (by rw [h2]; exact hp), h2, h3, h4, List.mem_filter.2 ⟨h5, by simpa using hp⟩⟩
  · intro x hx
    obtain ⟨hx, hp⟩ := List.mem_filter.1 hx
    obtain ⟨l, hl, he⟩ := V.back x hx
    exact ⟨l, List.mem_filter.2 ⟨hl, by rw [he]; exact hp⟩, he⟩
  · exact V.keys.sublist (List.filter_sublist.map _)

theorem SView.add {pb : Nat} {A A' : AHeap} {L : List Blk} {t : List (Nat × Nat)} {d : Ck} {n b : Nat} (V : SView A L t) (W : A'.WF pb)
    (hd : A'.Used d) (hk : ∀ c, A.Used c → A'.Used c ∧ c ≠ d) (hf : d.uptr + n ≤ d.addr + d.size)
    (hb : b ≤ 1 → d.st = .used none) :
    d.uptr ∉ t.map Prod.fst ∧ SView A' (⟨d.uptr, n, b⟩ :: L) ((d.uptr, d.size) :: t) := by
  have hL : ∀ l ∈ L, l.ptr ≠ d.uptr := by
    intro l hl he
    obtain ⟨c, h1, h2, _⟩ := V.live l hl
    exact (hk c h1).2 (W.uptr_inj (hk c h1).1.1 hd.1 (by rw [h2, he]))
  have ht : d.uptr ∉ t.map Prod.fst := by
    intro h
    obtain ⟨x, hx, he⟩ := List.mem_map.1 h
    obtain ⟨l, hl, h1⟩ := V.back x hx
    exact hL l hl (by rw [h1, he])
  refine ⟨ht, ?_, ?_, ?_, ?_⟩
  · intro l hl
    rcases List.mem_cons.1 hl with rfl | hl
    · exact ⟨d, hd, rfl, hf, hb, by simp⟩
    · obtain ⟨c, h1, h2, h3, h4, h5⟩ := V.live l hl
      exact ⟨c, (hk c h1).1, h2, h3, h4, List.mem_cons_of_mem _ h5⟩
  · exact List.pairwise_cons.2 ⟨fun l hl => (hL l hl).symm, V.dist⟩
  · intro x hx
    rcases List.mem_cons.1 hx with rfl | hx
    · exact ⟨_, List.mem_cons_self, rfl⟩
    · obtain ⟨l, hl, h1⟩ := V.back x hx
      exact ⟨l, List.mem_cons_of_mem _ hl, h1⟩
  · exact List.nodup_cons.2 ⟨ht, V.keys⟩

/-- The free of a live block with its event. -/
theorem sfree_ev {H : Tab} {C : Config} {pb : Nat} {s s' : CS Light} {A : AHeap} {O K : List (Nat × Nat)} {P : Res} {c : Ck} {e : List Ev}
    (hF : H.free = true) (hG : H.hugeFree = true) (I : SInv pb s A O K P) (hc : A.Used c)
    (h : chainFreeH H (lightSource C) C s c.uptr = .ok (s', e)) :
    ∃ A' K', SFree pb s A O K P c s' A' K' ∧ blocks e = [(false, c.uptr, c.size)] := by
  have e1 := chainFreeH_er h
  obtain ⟨s2, A', K', e2, R⟩ := sfree_ok (C := C) I hc
  rw [e1] at e2
  cases e2
  refine ⟨A', K', R, ?_⟩
  obtain ⟨g1, _, g3⟩ := getChunkUnpadded_used I.ch.wf I.ch.mem hc
  have hu := I.ch.wf.uptr_ge c
  rcases chainFreeH_blocks hF hG h with ⟨_, _, h0 | h0⟩ | ⟨z, hz, hb⟩
  · omega
  · have g1' : getChunkUnpadded s.w.mem c.uptr = .ok (c.addr + 15) := g1
    rw [g1'] at h0
    cases h0
  · have : z = c.size := hz.unique ⟨_, g1, g3⟩
    rw [hb, this]

theorem sourceChain_inv {m : Mem} {R : Regions} {o : Os} {s : CS Light} {addr pb : Nat} {ts nm : Bool} (h1 : R.OK) (h2 : ∀ i, R.ent i = 0)
    (h3 : ∀ x, x ≤ MB2 → o.used x = true) (h4 : 0 < pb) (h5 : pb + 1536 < W64)
    (h6 : ∀ x, pb ≤ x → x < pb + 1536 → o.used x = true) (h : sourceChain ⟨m, R, Light.init o⟩ addr pb ts nm = .ok s) :
    SInv pb s emptyHeap [] [] (areas pb) ∧ s.c.rfqHead = 0 ∧ s.c.rfqTail = 0 := by
  obtain ⟨u, e, I, eR, eS, e1, e2, e3, e4, e5, e6, e7, e8, e9, e10, _⟩ :=
    chainBaseInit_ok ⟨m, R, Light.init o⟩ (addr := addr) (pb := pb) ts nm false h4 h5
  have eu : sourceChain ⟨m, R, Light.init o⟩ addr pb ts nm = .ok { u with c := { u.c with hasSrc := true } } := by
    unfold sourceChain userInit
    rw [e, Outcome.ok_bind, if_neg (by simp), Outcome.pure_eq, Outcome.ok_bind]
    rfl
  have hs : s = { u with c := { u.c with hasSrc := true } } := (Outcome.ok.inj (h.symm.trans eu))
  have hsrc : s.w.src = Light.init o := by rw [hs]; exact eS
  have hreg : s.w.regs = R := by rw [hs]; exact eR
  have hch : ChSt pb s.w.mem s.c emptyHeap := by
    rw [hs]
    refine ⟨emptyHeap_wf h4 h5, I.pool, I.mem, I.dead, I.lock, e6, rfl, e8, e4, by rw [show (({ u.c with hasSrc := true } : Chain).cnt) = u.c.cnt from rfl, e7]; rfl,
      ?_, ?_, ?_, ?_⟩
    · intro d hd; simp [emptyHeap, AHeap.shape] at hd
    · intro d hd; simp [emptyHeap, AHeap.shape] at hd
    · intro _ g hg; simp [emptyHeap] at hg
    · rintro c ⟨⟨g, hg, _⟩, _⟩; simp [emptyHeap] at hg
  refine ⟨⟨hch, ?_, ?_, ?_, ?_, ?_, ?_⟩, ?_, ?_⟩
  · rw [hsrc]; exact Light.init_inv _ o
  · rw [hreg]
    refine ⟨h1, ?_, ?_, ?_, fun i hi => absurd (h2 i) hi⟩
    · intro d hd; simp [emptyHeap, AHeap.shape, areas, Env.none] at hd
    · intro d hd; simp [emptyHeap, AHeap.shape, areas, Env.none] at hd
    · intro d hd; simp [emptyHeap, AHeap.shape, areas, Env.none] at hd
  · simp [areas, Res.mem]
  · intro d hd x hx1 hx2
    rw [hsrc]
    simp only [areas, Res.mem, List.mem_cons, List.not_mem_nil, or_false] at hd
    rcases hd with rfl | rfl
    · exact h6 x hx1 hx2
    · exact h3 x (by simp only at hx2; omega)
  · intro d _ e he; simp [emptyHeap, AHeap.shape] at he
  · intro d hd; simp [areas, Env.none] at hd
  · rw [hs]; exact e9
  · rw [hs]; exact e10

/-- The queue `Q` of the chain, its chunks and the table of the observer. -/
structure SQ (pb : Nat) (s : CS Light) (A : AHeap) (K : List (Nat × Nat)) (L Q : List Blk) (Qc : List Ck) (t : List (Nat × Nat)) : Prop where
  inv : SInv pb s A [] K (areas pb)
  q : QAt s A Qc
  ptrs : Qc.map Ck.uptr = Q.map Blk.ptr
  view : SView A (L ++ Q) t

theorem SQ.out {pb : Nat} {s : CS Light} {A : AHeap} {K : List (Nat × Nat)} {L Q : List Blk} {Qc : List Ck} {t : List (Nat × Nat)} {l : Blk}
    (I : SQ pb s A K L Q Qc t) (hl : l ∈ L) : ∀ k ∈ Q, k.ptr ≠ l.ptr :=
  fun k hk h => (List.pairwise_append.1 I.view.dist).2.2 l hl k hk h.symm

theorem SQ.notQ {pb : Nat} {s : CS Light} {A : AHeap} {K : List (Nat × Nat)} {L Q : List Blk} {Qc : List Ck} {t : List (Nat × Nat)} {l : Blk}
    {c : Ck} (I : SQ pb s A K L Q Qc t) (hl : l ∈ L) (hc : c.uptr = l.ptr) : c ∉ Qc := by
  intro h
  have : c.uptr ∈ Q.map Blk.ptr := by rw [← I.ptrs]; exact List.mem_map.2 ⟨c, h, rfl⟩
  obtain ⟨k, hk, he⟩ := List.mem_map.1 this
  exact I.out hl k hk (by rw [he, hc])

theorem SQ.filter {pb : Nat} {s : CS Light} {A : AHeap} {K : List (Nat × Nat)} {L Q : List Blk} {Qc : List Ck} {t : List (Nat × Nat)} {l : Blk}
    (I : SQ pb s A K L Q Qc t) (hl : l ∈ L) :
    (L ++ Q).filter (fun k => k.ptr != l.ptr) = L.filter (fun k => k.ptr != l.ptr) ++ Q := by
  rw [List.filter_append]
  congr 1
  rw [List.filter_eq_self]
  intro k hk
  simpa using I.out hl k hk

theorem SQ.alloc {H : Tab} {C : Config} {pb : Nat} {s s' : CS Light} {A : AHeap} {K : List (Nat × Nat)} {L Q : List Blk} {Qc : List Ck}
    {t : List (Nat × Nat)} {b n r : Nat} {e : List Ev} (hA : H.alloc = true) (hGA : H.hugeAlloc = true)
    (I : SQ pb s A K L Q Qc t) (hb : GoodBound b) (hn : n ≠ 0) (hsz : PSize (reqSize b n))
    (hx : allocAlignH H (lightSource C) s b n = .ok (s', r, e)) :
    ∃ d A' K', r = d.uptr ∧ SAlloc pb s A [] K (areas pb) b n d s' A' K' ∧ SQ pb s' A' K' (⟨r, n, b⟩ :: L) Q Qc ((r, d.size) :: t) ∧
      observe t e = some ((r, d.size) :: t) := by
  obtain ⟨d, A', K', rfl, R, hev⟩ := salloc_ev hA hGA I.inv hb hn hsz hx
  obtain ⟨hp, V'⟩ := I.view.add (n := n) (b := b) R.inv.ch.wf ((R.used d).2 (Or.inr rfl))
    (fun c hc => ⟨(R.used c).2 (Or.inl hc), fun h => R.fresh (h ▸ hc)⟩) R.fit R.noPad
  exact ⟨d, A', K', rfl, R, ⟨R.inv, (R.step I.inv (fun _ => True)).queue I.inv I.q (fun _ _ => trivial) (by rw [R.chain]; exact ⟨rfl, rfl⟩),
    I.ptrs, V'⟩, observe_alloc hp hev⟩

theorem SQ.free {H : Tab} {C : Config} {pb : Nat} {s s' : CS Light} {A : AHeap} {K : List (Nat × Nat)} {L Q : List Blk} {Qc : List Ck}
    {t : List (Nat × Nat)} {l : Blk} {e : List Ev} (hF : H.free = true) (hGF : H.hugeFree = true)
    (I : SQ pb s A K L Q Qc t) (hl : l ∈ L) (hx : chainFreeH H (lightSource C) C s l.ptr = .ok (s', e)) :
    ∃ A' K', SQ pb s' A' K' (L.filter (fun k => k.ptr != l.ptr)) Q Qc (t.filter (fun x => x.1 != l.ptr)) ∧
      observe t e = some (t.filter (fun x => x.1 != l.ptr)) := by
  obtain ⟨c, h1, h2, h3, h4, h5⟩ := I.view.live l (List.mem_append_left _ hl)
  rw [← h2] at hx
  obtain ⟨A', K', R, hev⟩ := sfree_ev hF hGF I.inv h1 hx
  refine ⟨A', K', ⟨R.inv, ?_, I.ptrs, ?_⟩, ?_⟩
  · refine (R.step I.inv).queue I.inv I.q (fun k hk he => I.notQ hl h2 (he ▸ hk)) (by rw [R.chain]; exact ⟨rfl, rfl⟩)
  · rw [← I.filter hl]
    exact I.view.del (p := l.ptr) (fun k hk hne => (R.used k (by rintro rfl; exact hne h2)).2 hk)
  · rw [h2] at hev
    exact observe_free h5 hev

theorem SQ.realloc {H : Tab} {C : Config} {pb : Nat} {s s' : CS Light} {A : AHeap} {K : List (Nat × Nat)} {L Q : List Blk} {Qc : List Ck}
    {t : List (Nat × Nat)} {l : Blk} {b n r : Nat} {e : List Ev} (hA : H.alloc = true) (hGA : H.hugeAlloc = true)
    (hF : H.free = true) (hGF : H.hugeFree = true)
    (I : SQ pb s A K L Q Qc t) (hl : l ∈ L) (hb : GoodBound b) (hn : n ≠ 0) (hsz : PSize (reqSize b n)) (hg : l.bound ≤ 1 ∨ n ≤ l.len)
    (hx : chainReallocH H (lightSource C) C b s l.ptr n = .ok (s', r, e)) :
    ∃ A' K' t', SQ pb s' A' K' (⟨r, n, if r = l.ptr then l.bound else b⟩ :: L.filter (fun k => k.ptr != l.ptr)) Q Qc t' ∧
      observe t e = some t' := by
  obtain ⟨c, h1, h2, h3, h4, h5⟩ := I.view.live l (List.mem_append_left _ hl)
  have V := I.view
  have W := I.inv.ch.wf
  have hu := W.uptr_ge c
  obtain ⟨v, e1, e2, e3⟩ := getChunk_used W I.inv.ch.mem h1
  have e1' : getChunk s.w.mem l.ptr = .ok v := by rw [← h2]; exact e1
  have e3' : getUnpaddedSize s.w.mem v = .ok c.size := e3
  have hwf := W.has_wf h1.1
  have hrange := W.has_range h1.1
  have hge := hwf.ge
  have hsub : sub64 c.size 16 = c.size - 16 := sub64_eq (by omega) (by omega)
  unfold chainReallocH at hx
  rw [if_neg (by omega), if_neg (by omega), if_neg hn, e1', Outcome.ok_bind, if_pos e2, e3', Outcome.ok_bind, hsub] at hx
  split at hx
  · cases hx
  · split at hx
    · rename_i hk
      have hx := Outcome.ok.inj hx
      simp only [Prod.mk.injEq] at hx
      obtain ⟨rfl, rfl, rfl⟩ := hx
      refine ⟨A, K, t, ⟨I.inv, I.q, I.ptrs, ?_⟩, rfl⟩
      have hfit : l.ptr + n ≤ c.addr + c.size := by
        rcases hg with h | h
        · have : c.uptr = c.addr + 16 := by unfold Ck.uptr Ck.off; rw [h4 h]
          omega
        · omega
      rw [List.cons_append, ← I.filter hl]
      refine ⟨?_, ?_, ?_, V.keys⟩
      · intro k hk
        rcases List.mem_cons.1 hk with rfl | hk
        · exact ⟨c, h1, h2, hfit, by simpa using h4, h5⟩
        · exact V.live k (List.mem_filter.1 hk).1
      · refine List.pairwise_cons.2 ⟨fun k hk => ?_, V.dist.filter _⟩
        have := (List.mem_filter.1 hk).2
        simp only [bne_iff_ne, ne_eq] at this
        exact fun h => this h.symm
      · intro x hx
        obtain ⟨k, hk, he⟩ := V.back x hx
        by_cases hkl : k.ptr = l.ptr
        · exact ⟨_, List.mem_cons_self, by rw [← he, hkl]⟩
        · exact ⟨k, List.mem_cons_of_mem _ (List.mem_filter.2 ⟨hk, by simpa using hkl⟩), he⟩
    · obtain ⟨⟨s1, r1, ea⟩, x1, x2⟩ := Outcome.bind_eq_ok hx
      obtain ⟨s2, x3, x4⟩ := Outcome.bind_eq_ok x2
      obtain ⟨⟨s3, eb⟩, x5, x6⟩ := Outcome.bind_eq_ok x4
      have x6 := Outcome.ok.inj x6
      simp only [Prod.mk.injEq] at x6
      obtain ⟨rfl, rfl, rfl⟩ := x6
      obtain ⟨d, A1, K1, hr, R, I1, o1⟩ := I.alloc hA hGA hb hn hsz x1
      have hdU : A1.Used d := (R.used d).2 (Or.inr rfl)
      have hcU : A1.Used c := (R.used c).2 (Or.inl h1)
      have hdc : c ≠ d := fun h => R.fresh (h ▸ h1)
      have hne : r1 ≠ l.ptr := fun h => hdc (R.inv.ch.wf.uptr_inj hcU.1 hdU.1 (by rw [h2, ← h, hr]))
      have hk : (if c.size - 16 < n then c.size - 16 else n) ≤ n := by split <;> omega
      generalize (if c.size - 16 < n then c.size - 16 else n) = k at x3 hk
      have I2 : SQ pb s2 A1 K1 (⟨r1, n, b⟩ :: L) Q Qc ((r1, d.size) :: t) := by
        unfold copyTo at x3
        simp only at x3
        rw [if_pos (by rw [hr]; exact R.nz)] at x3
        obtain ⟨m2, y1, y2⟩ := Outcome.bind_eq_ok x3
        have y2 := Outcome.ok.inj y2
        subst y2
        unfold memCopy at y1
        split at y1
        · have y1 := Outcome.ok.inj y1
          have st := I1.inv.store hdU (m' := m2) (fun x hx => by
            rw [← y1]
            have := R.fit
            exact if_neg (by omega))
          exact ⟨st.inv, st.queue I1.inv I1.q (fun j hj he => I1.notQ (l := ⟨r1, n, b⟩) List.mem_cons_self hr.symm (he ▸ hj)) ⟨rfl, rfl⟩,
            I1.ptrs, I1.view⟩
        · cases y1
      obtain ⟨A', K', I3, o3⟩ := I2.free hF hGF (l := l) (List.mem_cons_of_mem _ hl) x5
      rw [List.filter_cons_of_pos (by simpa using hne)] at I3
      refine ⟨A', K', _, by rw [if_neg hne]; exact I3, ?_⟩
      rw [observe_append, o1, Option.bind_some]
      exact o3

/-- What the observer is told of a block: it is taken from the queue, freed, allocated. -/
inductive Note where
  | entry (p : Nat)
  | freed (p : Nat)
  | alloced (p : Nat)

/-- The notes of a list of events. -/
def told : List Ev → List Note
  | [] => []
  | .flushEntry _ p :: l => .entry p :: told l
  | .free _ p _ :: l => .freed p :: told l
  | .hugeFree _ p _ :: l => .freed p :: told l
  | .alloc _ _ p _ _ :: l => .alloced p :: told l
  | .hugeAlloc _ _ p _ _ :: l => .alloced p :: told l
  | _ :: l => told l

theorem told_append (l l' : List Ev) : told (l ++ l') = told l ++ told l' := by
  induction l with
  | nil => rfl
  | cons e l ih => cases e <;> simp [told, ih]

theorem freeMacroBlocH_told {σ : Type} {H : Tab} {S : Source σ} {s s' : CS σ} {e : List Ev} {v : Nat} (h : freeMacroBlocH H S s v = .ok (s', e)) : told e = [] := by
  unfold freeMacroBlocH at h
  obtain ⟨t, h1, h2⟩ := Outcome.bind_eq_ok h
  split at h2
  · cases h2; rfl
  · obtain ⟨a, _, h3⟩ := Outcome.bind_eq_ok h2
    cases h3
    unfold emit
    split <;> rfl

theorem freeLockedH_told {σ : Type} {H : Tab} {S : Source σ} {s s' : CS σ} {e : List Ev} {v : Nat} (h : freeLockedH H S s v = .ok (s', e)) : told e = [] := by
  unfold freeLockedH at h
  obtain ⟨_, _, h2⟩ := Outcome.bind_eq_ok h
  obtain ⟨⟨t, v', e1⟩, h3, h4⟩ := Outcome.bind_eq_ok h2
  have k : told e1 = [] := by
    unfold mergeH at h3
    obtain ⟨q, _, h5⟩ := Outcome.bind_eq_ok h3
    split at h5
    · obtain ⟨_, _, h6⟩ := Outcome.bind_eq_ok h5
      cases h6; rfl
    · cases h5; rfl
  simp only at h4
  split at h4
  · obtain ⟨⟨u, e2⟩, h5, h6⟩ := Outcome.bind_eq_ok h4
    cases h6
    rw [told_append, k, freeMacroBlocH_told h5]; rfl
  · obtain ⟨_, _, h6⟩ := Outcome.bind_eq_ok h4
    cases h6
    exact k

/-- A free only tells of its block, and of no entry of the queue. -/
theorem chainFreeH_told {σ : Type} {H : Tab} {S : Source σ} {C : Config} {s s' : CS σ} {e : List Ev} (hF : H.free = true) (hG : H.hugeFree = true) {p v : Nat} (hp : p ≠ 0)
    (hv : getChunkUnpadded s.w.mem p = .ok v) (h0 : v ≠ 0) (h : chainFreeH H S C s p = .ok (s', e)) : told e = [Note.freed p] := by
  unfold chainFreeH at h
  rw [if_neg hp, hv] at h
  split at h
  · cases h
  · rw [Outcome.ok_bind, if_neg h0] at h
    split at h
    · cases h
    · split at h
      · obtain ⟨⟨u, e2⟩, h5, h6⟩ := Outcome.bind_eq_ok h
        cases h6
        rw [told_append, freeMacroBlocH_told h5]
        simp [emit, hG, told]
      · obtain ⟨s1, h3, h4⟩ := Outcome.bind_eq_ok h
        obtain ⟨⟨u, e2⟩, h5, h6⟩ := Outcome.bind_eq_ok h4
        obtain ⟨s3, h7, h8⟩ := Outcome.bind_eq_ok h6
        cases h8
        rw [told_append, freeLockedH_told h5]
        simp [emit, hF, told]

theorem observe_emit_entry {t : List (Nat × Nat)} {b : Bool} {x y : Nat} (l : List Ev) :
    observe t (emit b (.flushEntry x y) ++ l) = observe t l := by
  unfold emit
  split <;> rfl

theorem told_emit_entry {b : Bool} {x y : Nat} (l : List Ev) (h : b = true) :
    told (emit b (.flushEntry x y) ++ l) = Note.entry y :: told l := by
  rw [h]; rfl

/-- The purge of the queue with its events: each entry is announced, then freed. -/
theorem ploop_ev {H : Tab} {C : Config} {pb : Nat} (hF : H.free = true) (hGF : H.hugeFree = true) : ∀ {Q : List Blk} {Qc : List Ck} {s s' : CS Light}
    {A : AHeap} {K : List (Nat × Nat)} {L : List Blk} {t : List (Nat × Nat)} {p : Nat} {e : List Ev}, SInv pb s A [] K (areas pb) →
    QList s.w.mem p Qc → (∀ k ∈ Qc, A.Used k) → Qc.Nodup → Qc.map Ck.uptr = Q.map Blk.ptr → SView A (L ++ Q) t →
    PLoopH H (lightSource C) C s p s' e → ∃ A' K' t', SInv pb s' A' [] K' (areas pb) ∧ SView A' L t' ∧ observe t e = some t' ∧
      s'.c.rfqHead = s.c.rfqHead ∧ s'.c.rfqTail = s.c.rfqTail ∧
      (H.flushEntry = true → told e = Q.flatMap (fun k => [Note.entry k.ptr, Note.freed k.ptr]))
  | [], [], s, s', A, K, L, t, p, e, I, h, _, _, _, V, hl => by
    have h : p = 0 := h
    subst h
    cases hl with
    | nil => exact ⟨A, K, t, I, by simpa using V, rfl, rfl, rfl, fun _ => rfl⟩
    | cons h0 _ _ => exact absurd rfl h0
  | q :: Q, k :: Qc, s, s', A, K, L, t, p, e, I, h, hu, hnd, hm, V, hl => by
    have hnz : p ≠ 0 := fun h0 => by
      have := (QList.nz I.ch.wf h hu).1 h0
      simp at this
    obtain ⟨hp, h1, h2⟩ := h
    simp only [List.map_cons, List.cons.injEq] at hm
    obtain ⟨hm1, hm2⟩ := hm
    have hk := hu k List.mem_cons_self
    cases hl with
    | nil => exact absurd rfl hnz
    | @cons _ s1 _ _ e1 e2 _ hf hr =>
      rw [h1, hp] at hf
      obtain ⟨A1, K1, F, hev⟩ := sfree_ev hF hGF I hk hf
      have hkl : k ∉ Qc := (List.nodup_cons.1 hnd).1
      have hne : ∀ j ∈ Qc, j ≠ k := fun j hj h => hkl (h ▸ hj)
      have S1 := F.step I
      have hq1 : QList s1.w.mem (readLE s.w.mem p 8) Qc := by
        refine h2.congr (fun j hj x a b => S1.frame x ?_)
        have := I.ch.room j (hu j (List.mem_cons_of_mem _ hj))
        exact Or.inr (Or.inr ⟨j, hu j (List.mem_cons_of_mem _ hj), hne j hj, a, by omega⟩)
      have hdel := V.del (p := q.ptr) (A' := A1) (fun j hj hn => (F.used j (by rintro rfl; exact hn hm1)).2 hj)
      have hfil : (L ++ q :: Q).filter (fun k => k.ptr != q.ptr) = L ++ Q := by
        obtain ⟨_, d2, d3⟩ := List.pairwise_append.1 V.dist
        have d4 := (List.pairwise_cons.1 d2).1
        rw [List.filter_append, List.filter_cons_of_neg (by simp)]
        congr 1
        · rw [List.filter_eq_self]
          intro j hj
          simpa using d3 j hj q List.mem_cons_self
        · rw [List.filter_eq_self]
          intro j hj
          simpa using (d4 j hj).symm
      rw [hfil] at hdel
      obtain ⟨c, c1, c2, _, _, c5⟩ := V.live q (List.mem_append_right _ List.mem_cons_self)
      have hck : c = k := I.ch.wf.uptr_inj c1.1 hk.1 (by rw [c2, hm1])
      subst hck
      obtain ⟨A', K', t', I', V', o, r1, r2, tl⟩ := ploop_ev hF hGF S1.inv hq1
        (fun j hj => (F.used j (hne j hj)).2 (hu j (List.mem_cons_of_mem _ hj))) (List.nodup_cons.1 hnd).2 hm2 hdel hr
      refine ⟨A', K', t', I', V', ?_, by rw [r1, F.chain], by rw [r2, F.chain], ?_⟩
      · rw [List.append_assoc, observe_emit_entry, observe_append]
        rw [c2] at hev
        rw [observe_free c5 hev, Option.bind_some]
        exact o
      · intro hE
        obtain ⟨g1, _, _⟩ := getChunkUnpadded_used I.ch.wf I.ch.mem hk
        have hup := I.ch.wf.uptr_ge c
        have := chainFreeH_told hF hGF (by omega) g1 (by omega) hf
        rw [List.append_assoc, told_emit_entry _ hE, told_append, this, tl hE, h1, hp, c2]
        rfl
  | [], k :: Qc, _, _, _, _, _, _, _, _, _, _, _, _, h, _, _ => by simp at h
  | q :: Q, [], _, _, _, _, _, _, _, _, _, _, _, _, h, _, _ => by simp at h

/-- The purge. -/
theorem SQ.purge {H : Tab} {C : Config} {pb : Nat} {s s' : CS Light} {A : AHeap} {K : List (Nat × Nat)} {L Q : List Blk} {Qc : List Ck}
    {t : List (Nat × Nat)} {e : List Ev} (hF : H.free = true) (hGF : H.hugeFree = true) (I : SQ pb s A K L Q Qc t)
    (h : purgeRfqH H (lightSource C) C s = .ok (s', e)) :
    ∃ A' K' t', SQ pb s' A' K' L [] [] t' ∧ observe t e = some t' ∧
      (H.flushEntry = true → told e = Q.flatMap (fun k => [Note.entry k.ptr, Note.freed k.ptr])) := by
  have W := I.inv.ch.wf
  unfold purgeRfqH at h
  rw [if_neg (by simp [I.inv.ch.dead])] at h
  split at h
  · rename_i h0
    have hQ := (QList.nz W I.q.list I.q.used).1 h0
    subst hQ
    have hQ : Q = [] := by simpa using I.ptrs
    subst hQ
    cases h
    exact ⟨A, K, t, I, rfl, fun _ => rfl⟩
  · rename_i h0
    obtain ⟨_, _, h2⟩ := Outcome.bind_eq_ok h
    obtain ⟨e0, h3, h4⟩ := Outcome.bind_eq_ok h2
    obtain ⟨⟨u, e1⟩, h5, h6⟩ := Outcome.bind_eq_ok h4
    have h6 := Outcome.ok.inj h6
    simp only [Prod.mk.injEq] at h6
    obtain ⟨rfl, rfl⟩ := h6
    have he0 : e0 = [] := by
      unfold flushHook at h3
      split at h3
      · obtain ⟨k, h7, _⟩ := Outcome.bind_eq_ok h3
        exact absurd h7 (countLoop_bad h0)
      · cases h3; rfl
    subst he0
    obtain ⟨A', K', t', I', V', o, r1, r2, tl⟩ := ploop_ev hF hGF (I.inv.setQ 0 0) I.q.list I.q.used I.q.nodup I.ptrs I.view (PLoopH.of h5)
    exact ⟨A', K', t', ⟨I', ⟨r1, r2, by simp, by simp⟩, rfl, by simpa using V'⟩, o, tl⟩

theorem STrace.inv {H : Tab} {C : Config} {addr pb : Nat} {s : CS Light} {L Q : List Blk} {T : List Ev} (hA : H.alloc = true)
    (hGA : H.hugeAlloc = true) (hF : H.free = true) (hGF : H.hugeFree = true) (h : STrace H C addr pb s L Q T) :
    ∃ A K Qc t, SQ pb s A K L Q Qc t ∧ observe [] T = some t := by
  induction h with
  | init h1 h2 h3 h4 h5 h6 h7 =>
    obtain ⟨I, q1, q2⟩ := sourceChain_inv h1 h2 h3 h4 h5 h6 h7
    exact ⟨_, _, [], [], ⟨I, ⟨q1, q2, by simp, by simp⟩, rfl, SView.nil _⟩, rfl⟩
  | alloc _ hb hn hsz hx ih =>
    obtain ⟨A, K, Qc, t, I, ho⟩ := ih
    obtain ⟨d, A', K', rfl, R, I', o⟩ := I.alloc hA hGA hb hn hsz hx
    exact ⟨A', K', Qc, _, I', by rw [observe_append, ho, Option.bind_some]; exact o⟩
  | free _ hl hx ih =>
    obtain ⟨A, K, Qc, t, I, ho⟩ := ih
    obtain ⟨A', K', I', o⟩ := I.free hF hGF hl hx
    exact ⟨A', K', Qc, _, I', by rw [observe_append, ho, Option.bind_some]; exact o⟩
  | realloc _ hl hb hn hsz hg hx ih =>
    obtain ⟨A, K, Qc, t, I, ho⟩ := ih
    obtain ⟨A', K', t', I', o⟩ := I.realloc hA hGA hF hGF hl hb hn hsz hg hx
    exact ⟨A', K', Qc, _, I', by rw [observe_append, ho, Option.bind_some]; exact o⟩
  | @remote s s' L Q T e l _ hl hx ih =>
    obtain ⟨A, K, Qc, t, I, ho⟩ := ih
    unfold remoteFreeH at hx
    rw [if_neg (by simp [I.inv.ch.dead])] at hx
    by_cases hs : s.c.threadSafe = true
    · rw [if_pos hs] at hx ⊢
      obtain ⟨A', K', I', o⟩ := I.free hF hGF hl hx
      exact ⟨A', K', Qc, _, I', by rw [observe_append, ho, Option.bind_some]; exact o⟩
    · rw [if_neg hs] at hx ⊢
      obtain ⟨c, h1, h2, h3, h4, h5⟩ := I.view.live l (List.mem_append_left _ hl)
      obtain ⟨s1, e1, S1, q1, _⟩ := rfqRegister_ok I.inv I.q h1 (I.notQ hl h2)
      rw [← h2, e1, Outcome.ok_bind] at hx
      have hx := Outcome.ok.inj hx
      simp only [Prod.mk.injEq] at hx
      obtain ⟨rfl, rfl⟩ := hx
      refine ⟨A, K, Qc ++ [c], t, ⟨S1.inv, q1, by simp [I.ptrs, h2], ?_⟩, by rw [List.append_nil]; exact ho⟩
      have V := I.view
      obtain ⟨d1, d2, d3⟩ := List.pairwise_append.1 V.dist
      refine ⟨?_, ?_, ?_, V.keys⟩
      · intro k hk
        rw [← List.append_assoc, ← I.filter hl] at hk
        rcases List.mem_append.1 hk with hk | hk
        · exact V.live k (List.mem_filter.1 hk).1
        · rw [List.mem_singleton] at hk
          rw [hk]; exact ⟨c, h1, h2, h3, h4, h5⟩
      · rw [← List.append_assoc, ← I.filter hl]
        refine List.pairwise_append.2 ⟨V.dist.filter _, by simp, ?_⟩
        intro a ha b hb
        rw [List.mem_singleton] at hb
        rw [hb]
        simpa using (List.mem_filter.1 ha).2
      · intro x hx
        obtain ⟨k, hk, he⟩ := V.back x hx
        rw [← List.append_assoc, ← I.filter hl]
        by_cases hkl : k.ptr = l.ptr
        · exact ⟨l, by simp, by rw [← he, hkl]⟩
        · exact ⟨k, List.mem_append_left _ (List.mem_filter.2 ⟨hk, by simpa using hkl⟩), he⟩
  | purge _ hx ih =>
    obtain ⟨A, K, Qc, t, I, ho⟩ := ih
    obtain ⟨A', K', t', I', o, _⟩ := I.purge hF hGF hx
    exact ⟨A', K', [], t', I', by rw [observe_append, ho, Option.bind_some]; exact o⟩
  | @write s L Q T l a v _ hl hb ih =>
    obtain ⟨A, K, Qc, t, I, ho⟩ := ih
    obtain ⟨c, h1, h2, h3, h4, h5⟩ := I.view.live l (List.mem_append_left _ hl)
    have st := I.inv.store h1 (m' := fun x => if x = a then v else s.w.mem x) (fun x hx => if_neg (by
      rintro rfl
      have h6 := hb.1
      have h7 := hb.2
      omega))
    exact ⟨A, K, Qc, t, ⟨st.inv, st.queue I.inv I.q (fun j hj he => I.notQ hl h2 (he ▸ hj)) ⟨rfl, rfl⟩, I.ptrs, I.view⟩, ho⟩

end MpcAlloc.Hooks
