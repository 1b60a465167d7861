import Verif.PropsPosix
import Verif.PropsPosixNeg

/-!
C78: the process holds at most one bloc per block, and the memory of a block that is freed serves again.

The first part holds for the sizes that are not just below the huge limit. Of those, a block is allocated as a normal one
and freed as a huge one (finding 6 of DESIGN.md): nothing is done for it, and no later call can undo that.
-/

namespace MpcAlloc

variable {Ω : Env}

/-! ## Specification -/

/-- Calls made from a state on: `s` and `G` are the process and its blocks at first, the others those at the end. -/
inductive PFrom (C : Config) (X : POp → Prop) (s : PS) (G : PSpec) : PS → PSpec → Prop
  | refl : PFrom C X s G s G
  | step {s1 s2 : PS} {G1 : PSpec} {op : POp} {r : Nat} : PFrom C X s G s1 G1 → PValid s1 G1 op → X op →
      pexec C s1 op = .ok (s2, r) → PFrom C X s G s2 (G1.after op r)

/-! ## Blocs and blocks -/

/-- Disjoint areas that each hold one of the addresses `Q`. -/
theorem hit_le : ∀ (D : List (Nat × Nat)) (Q : List Nat), D.Pairwise Apart →
    (∀ d ∈ D, ∃ q ∈ Q, d.1 ≤ q ∧ q < d.1 + d.2) → D.length ≤ Q.length
  | [], _, _, _ => Nat.zero_le _
  | d :: D, Q, hp, h => by
    obtain ⟨hd, hp⟩ := List.pairwise_cons.1 hp
    obtain ⟨q, hq, h1, h2⟩ := h d List.mem_cons_self
    have ih := hit_le D (Q.erase q) hp (fun e he => by
      obtain ⟨q', hq', h3, h4⟩ := h e (List.mem_cons_of_mem _ he)
      have := hd e he
      unfold Apart at this
      exact ⟨q', (List.mem_erase_of_ne (by omega)).2 hq', h3, h4⟩)
    rw [List.length_erase_of_mem hq] at ih
    have := List.length_pos_of_mem hq
    rw [List.length_cons]
    omega

/-- In a process without leak every bloc of a chain holds a block of its thread. -/
theorem PInv.bloc_block {s : PS} {G : PSpec} {H : List Gh} {L : List (Nat × Nat)} {P : Res} (B : PBase s H L P)
    (K : PBlk True G H) {t : Nat} {g : Gh} (hg : H[t]? = some g) {d : Nat × Nat} (hd : d ∈ g.A.shape) :
    ∃ l ∈ G.live ++ G.pend, l.owner = t ∧ d.1 ≤ l.ptr ∧ l.ptr < d.1 + d.2 := by
  obtain ⟨hb, hu⟩ := K.clean trivial t g hg
  obtain ⟨c, hc, c1, c2⟩ := hb d hd
  obtain ⟨_, l, hl, ho, hp⟩ := hu c hc
  obtain ⟨ch, _, T⟩ := B.getH hg
  obtain ⟨e, he, e1, e2⟩ := seg_of_has T.ch.wf hc.1
  have hap := (List.pairwise_append.1 B.lin.apart).1
  have h32 := (T.ch.wf.has_wf hc.1).ge
  have hr := T.ch.room c hc
  have hu := T.ch.wf.uptr_ge c
  have hde : d = e := by
    by_contra hne
    have := pairwise_mem (fun _ _ h => Apart.symm h) hap (mem_shapes.2 ⟨t, g, hg, hd⟩) (mem_shapes.2 ⟨t, g, hg, he⟩) hne
    unfold Apart at this
    omega
  subst hde
  exact ⟨l, hl, ho, by omega, by omega⟩

/-- C78, for the sizes that are not just below the huge limit (`CleanSize`): the blocs taken from the source are at most
as many as the blocks that are live or wait for their owner, and the blocs of the chain of a thread at most as many as
the blocks of that thread. Missing: requests that need a chunk of 1 MB (`C78_refuted`, `C78_lost_forever`). -/
theorem C78_blocs_bounded_partial {C : Config} {s : PS} {G : PSpec} (hf : C.reallocFactor ≠ 0)
    (h : PReach C CleanOp s G) :
    s.w.src.counter ≤ G.live.length + G.pend.length ∧
    ∀ t c, s.chs[t]? = some c → c.cnt ≤ (((G.live ++ G.pend).filter (fun l => decide (l.owner = t))).length : Int) := by
  obtain ⟨H, L, D, B, K⟩ := h.inv (cl := True) hf (fun _ _ h => h)
  have hap := (List.pairwise_append.1 B.lin.apart).1
  constructor
  · have key : (shapes H).length ≤ ((G.live ++ G.pend).map PBlock.ptr).length := ?_
    · rw [List.length_map, List.length_append] at key
      rw [B.lin.cnt]
      omega
    refine hit_le _ _ hap (fun d hd => ?_)
    obtain ⟨t, g, hg, hd⟩ := mem_shapes.1 hd
    obtain ⟨l, hl, _, h1, h2⟩ := PInv.bloc_block B K hg hd
    exact ⟨l.ptr, List.mem_map_of_mem hl, h1, h2⟩
  · intro t c hc
    obtain ⟨c', g, hc', hg, T⟩ := B.get (List.getElem?_eq_some_iff.1 hc).1
    obtain rfl : c = c' := Option.some.inj (hc.symm.trans hc')
    have key : g.A.shape.length ≤
        (((G.live ++ G.pend).filter (fun l => decide (l.owner = t))).map PBlock.ptr).length := ?_
    · rw [List.length_map] at key
      unfold AHeap.shape at key
      rw [List.length_map] at key
      rw [T.ch.cnt]
      omega
    refine hit_le _ _ ?_ (fun d hd => ?_)
    · exact (List.pairwise_flatMap.1 hap).1 g (List.mem_of_getElem? hg)
    · obtain ⟨l, hl, ho, h1, h2⟩ := PInv.bloc_block B K hg hd
      exact ⟨l.ptr, List.mem_map_of_mem (List.mem_filter.2 ⟨hl, decide_eq_true ho⟩), h1, h2⟩

/-- C78 is false: after `malloc(1048560)` and `free` there is no block, but there is a bloc. -/
theorem C78_refuted : ∃ C s G, PReach C (fun _ => True) s G ∧ G.live.length + G.pend.length < s.w.src.counter := by
  obtain ⟨C, s, h, hc⟩ := C24_refuted
  exact ⟨C, s, _, h, hc⟩

/-! ## A block that is never given back -/

/-- `G1` has the blocks of `G` and one more, `l`, that nobody knows. -/
structure Sim (G1 G : PSpec) (l : PBlock) : Prop where
  live : ∀ m, m ∈ G1.live ↔ m = l ∨ m ∈ G.live
  pend : ∀ m, m ∈ G1.pend ↔ m ∈ G.pend
  ptr : ∀ m ∈ G.live, m.ptr ≠ l.ptr

theorem Sim.drain {G1 G : PSpec} {l : PBlock} (S : Sim G1 G l) (t : Nat) : Sim (G1.drain t) (G.drain t) l :=
  ⟨S.live, fun m => by unfold PSpec.drain; simp only [List.mem_filter]; rw [S.pend m], S.ptr⟩

theorem Sim.del {G1 G : PSpec} {l : PBlock} (S : Sim G1 G l) (t : Nat) {p : Nat} (hp : p ≠ l.ptr) :
    Sim (G1.del t p) (G.del t p) l := by
  refine ⟨fun m => ?_, fun m => ?_, fun m hm => ?_⟩
  · unfold PSpec.del
    simp only [List.mem_filter, S.live m, decide_eq_true_eq]
    constructor
    · rintro ⟨rfl | h, h2⟩
      · exact Or.inl rfl
      · exact Or.inr ⟨h, h2⟩
    · rintro (rfl | ⟨h, h2⟩)
      · exact ⟨Or.inl rfl, Ne.symm hp⟩
      · exact ⟨Or.inr h, h2⟩
  · unfold PSpec.del
    simp only [List.mem_append, List.mem_filter, S.live m, S.pend m, decide_eq_true_eq]
    constructor
    · rintro (⟨rfl | h, h2⟩ | h)
      · exact absurd h2.1 (Ne.symm hp)
      · exact Or.inl ⟨h, h2⟩
      · exact Or.inr h
    · rintro (⟨h, h2⟩ | h)
      · exact Or.inl ⟨Or.inr h, h2⟩
      · exact Or.inr h
  · unfold PSpec.del at hm
    exact S.ptr m (List.mem_filter.1 hm).1

theorem Sim.add {G1 G : PSpec} {l : PBlock} (S : Sim G1 G l) (t : Nat) {r n : Nat} {pl : Bool}
    (hn : ((G1.add t r n pl).live ++ (G1.add t r n pl).pend).Pairwise (fun l l' => l.ptr ≠ l'.ptr)) :
    Sim (G1.add t r n pl) (G.add t r n pl) l := by
  unfold PSpec.add at hn ⊢
  by_cases hr : r = 0
  · rw [if_pos hr, if_pos hr]; exact S
  · rw [if_neg hr] at hn
    rw [if_neg hr, if_neg hr]
    have hl := (List.pairwise_cons.1 hn).1 l (List.mem_append_left _ ((S.live l).2 (Or.inl rfl)))
    refine ⟨fun m => ?_, S.pend, fun m hm => ?_⟩
    · simp only [List.mem_cons, S.live m]
      constructor
      · rintro (h | h | h)
        · exact Or.inr (Or.inl h)
        · exact Or.inl h
        · exact Or.inr (Or.inr h)
      · rintro (h | h | h)
        · exact Or.inr (Or.inl h)
        · exact Or.inl h
        · exact Or.inr (Or.inr h)
    · rcases List.mem_cons.1 hm with rfl | h
      · exact hl
      · exact S.ptr m h

theorem Sim.resize {G1 G : PSpec} {l : PBlock} (S : Sim G1 G l) {p n : Nat} (hp : p ≠ l.ptr) :
    Sim { G1 with live := G1.live.map (fun l => if l.ptr = p then { l with len := n } else l) }
      { G with live := G.live.map (fun l => if l.ptr = p then { l with len := n } else l) } l := by
  refine ⟨fun m => ?_, S.pend, fun m hm => ?_⟩
  · simp only [List.mem_map]
    constructor
    · rintro ⟨a, ha, rfl⟩
      rcases (S.live a).1 ha with rfl | h
      · exact Or.inl (if_neg (Ne.symm hp))
      · exact Or.inr ⟨a, h, rfl⟩
    · rintro (rfl | ⟨a, h, rfl⟩)
      · exact ⟨m, (S.live m).2 (Or.inl rfl), if_neg (Ne.symm hp)⟩
      · exact ⟨a, (S.live a).2 (Or.inr h), rfl⟩
  · obtain ⟨a, ha, rfl⟩ := List.mem_map.1 hm
    have := S.ptr a ha
    split
    · exact this
    · exact this

theorem Sim.mine {G1 G : PSpec} {l : PBlock} (S : Sim G1 G l) (t : Nat) {p : Nat} (hp : p ≠ l.ptr) :
    G1.mine t p = G.mine t p := by
  unfold PSpec.mine
  rw [Bool.eq_iff_iff, List.any_eq_true, List.any_eq_true]
  constructor
  · rintro ⟨m, hm, h⟩
    rcases (S.live m).1 hm with rfl | h'
    · exact absurd (of_decide_eq_true h).1 (Ne.symm hp)
    · exact ⟨m, h', h⟩
  · rintro ⟨m, hm, h⟩
    exact ⟨m, (S.live m).2 (Or.inr hm), h⟩

theorem Sim.valid {G1 G : PSpec} {l : PBlock} (S : Sim G1 G l) {s : PS} {op : POp} (h : PValid s G op) : PValid s G1 op := by
  have sub : ∀ m, m ∈ G.live → m ∈ G1.live := fun m hm => (S.live m).2 (Or.inr hm)
  cases op with
  | spawn a z pb => exact h
  | malloc t hh n => exact h
  | memalign t b n => exact h
  | calloc t hh n k => exact h
  | free t p => exact ⟨h.1, h.2.imp_right (fun ⟨m, hm, e⟩ => ⟨m, sub m hm, e⟩)⟩
  | realloc t p hh n => exact ⟨h.1, h.2.1, h.2.2.1, h.2.2.2.imp_right (fun ⟨m, hm, e⟩ => ⟨m, sub m hm, e⟩)⟩
  | write a v =>
    obtain ⟨m, hm, e⟩ := h
    exact ⟨m, sub m hm, e⟩

theorem Sim.after {G1 G : PSpec} {l : PBlock} (S : Sim G1 G l) (hl : l.ptr ≠ 0) {s : PS} {op : POp} {r : Nat}
    (h : PValid s G op)
    (hn : ((G1.after op r).live ++ (G1.after op r).pend).Pairwise (fun l l' => l.ptr ≠ l'.ptr)) :
    Sim (G1.after op r) (G.after op r) l := by
  cases op with
  | spawn a z pb => exact S
  | malloc t hh n => exact (S.drain t).add t hn
  | memalign t b n => exact (S.drain t).add t hn
  | calloc t hh n k => exact (S.drain t).add t hn
  | free t p =>
    refine (S.drain t).del t ?_
    rcases h.2 with rfl | ⟨m, hm, rfl⟩
    · exact Ne.symm hl
    · exact S.ptr m hm
  | realloc t p hh n =>
    have hp : p ≠ l.ptr := by
      rcases h.2.2.2 with rfl | ⟨m, hm, rfl, _⟩
      · exact Ne.symm hl
      · exact S.ptr m hm
    unfold PSpec.after at hn ⊢
    simp only at hn ⊢
    rw [S.mine t hp] at hn ⊢
    by_cases h0 : p = 0
    · rw [if_pos h0] at hn ⊢
      rw [if_pos h0]
      exact (S.drain t).add t hn
    · rw [if_neg h0] at hn ⊢
      rw [if_neg h0]
      by_cases h1 : n = 0
      · rw [if_pos h1, if_pos h1]
        exact (S.drain t).del t hp
      · rw [if_neg h1] at hn ⊢
        rw [if_neg h1]
        by_cases h2 : G.mine t p = true
        · rw [if_pos h2] at hn ⊢
          rw [if_pos h2]
          by_cases h3 : r = p
          · rw [if_pos h3, if_pos h3]
            exact S.resize hp
          · rw [if_neg h3] at hn ⊢
            rw [if_neg h3]
            exact (S.del t hp).add t hn
        · rw [if_neg h2] at hn ⊢
          rw [if_neg h2]
          exact ((S.drain t).del t hp).add t hn
  | write a v => exact S

/-- The calls of a process that does not know of the block `l` leave it alone. -/
theorem PFrom.sim {C : Config} {X : POp → Prop} (hf : C.reallocFactor ≠ 0) {s s' : PS} {G G' G1 : PSpec} {l : PBlock}
    (I : PInv Ω False s G1) (S : Sim G1 G l) (hl : l.ptr ≠ 0) (h : PFrom C X s G s' G') :
    ∃ Ω' G1', PInv Ω' False s' G1' ∧ Sim G1' G' l := by
  induction h with
  | refl => exact ⟨_, _, I, S⟩
  | @step s1 s2 G2 op r _ hv _ e ih =>
    obtain ⟨Ω', G1', I', S'⟩ := ih
    rcases pstep hf I' (S'.valid hv) False.elim with ⟨_, e'⟩ | ⟨s3, r', e', I3, _⟩
    · rw [e'] at e; cases e
    · obtain ⟨rfl, rfl⟩ := Prod.mk.inj (Outcome.ok.inj (e'.symm.trans e))
      obtain ⟨_, _, _, _, K⟩ := id I3
      exact ⟨_, _, I3, S'.after hl hv K.nodup⟩

/-- Free by the owner of a block of between 1 MB and 2 MB whose chunk does not cover a bloc: the chunk stays in use. -/
theorem free_keeps {C : Config} {cl : Prop} {s : PS} {G : PSpec} (I : PInv Ω cl s G) {t z : Nat} {l : PBlock} (hl : l ∈ G.live)
    (ho : l.owner = t) (hpl : l.plain = true) (hz : posixGetSize s.w.mem l.ptr = .ok z) (h1 : 1048560 < z + 16)
    (h2 : (z + 16) % MB2 ≠ MB2 - 48) :
    ∃ s', posixFree C s t l.ptr = .ok s' ∧ PInv Ω cl s' (G.drain t) := by
  obtain ⟨H, L, P, B, K⟩ := id I
  obtain ⟨g, k, hg, hk, hkQ, hp, _, hst⟩ := K.live l hl
  rw [ho] at hg
  obtain ⟨c0, hc, T⟩ := B.getH hg
  have ht := (List.getElem?_eq_some_iff.1 hc).1
  obtain ⟨u, e1, I1, _⟩ := purge_eff (C := C) I hc
  obtain ⟨u', A', L', e1', Pu, q'⟩ := purge_ok (C := C) (B.at hc hg) T.q
  obtain rfl : u = u' := Outcome.ok.inj (e1.symm.trans e1')
  have hc1 := PS.put_get u ht
  have B1 := B.step hc hg Pu.step q'
  have hk1 := Pu.step.keep k hk hkQ
  have hzk : z + 16 = k.size := by
    have := B.getSize hg hk
    rw [hp, hz] at this
    have := Outcome.ok.inj this
    have hu : k.uptr = k.addr + 16 := by
      unfold Ck.uptr Ck.off
      rw [hst hpl]
    have := (T.ch.wf.has_wf hk.1).ge
    omega
  have hu : k.uptr = k.addr + 16 := by
    unfold Ck.uptr Ck.off
    rw [hst hpl]
  have hz1 : posixGetSize (s.put t u).w.mem l.ptr = .ok z := by
    have := B1.getSize (set_get (a := (⟨g.pb, A', []⟩ : Gh)) hg) hk1
    rw [hp] at this
    rw [this]
    congr 1
    have := (T.ch.wf.has_wf hk.1).ge
    omega
  have hl1 : l ∈ (G.drain t).live := hl
  obtain ⟨R, b, c, e2, hb, e3, hcz, hc2, e4, hts, I2, hpz⟩ := lookup_eff I1 hl1
  obtain ⟨H2, L2, P2, B2, K2⟩ := id I2
  obtain ⟨g2, k2, hg2, hk2, _, hp2, _, hst2⟩ := K2.live l hl1
  have hu2 : k2.uptr = k2.addr + 16 := by
    unfold Ck.uptr Ck.off
    rw [hst2 hpl]
  obtain ⟨c2, hcc2, T2⟩ := B2.getH hg2
  have hz2 : z + 16 = k2.size := by
    have h3 := B2.getSize hg2 hk2
    have h4 : posixGetSize ((s.put t u).setRegs R).w.mem k2.uptr = .ok z := by rw [hp2]; exact hz1
    rw [h4] at h3
    have := Outcome.ok.inj h3
    have := (T2.ch.wf.has_wf hk2.1).ge
    omega
  have hleak : Leak k2 := ⟨by omega, by omega⟩
  unfold posixFree
  rw [PS.loc_eq hc, Outcome.ok_bind, e1, Outcome.ok_bind]
  simp only
  rw [if_neg hpz, e2, Outcome.ok_bind]
  simp only
  rw [if_neg hb]
  have e3' : readLE (s.put t u).w.mem (b + 16) 8 = c.addr := e3
  rw [e3', if_neg hcz]
  have e4' : PS.chainAt { w := { (s.put t u).w with regs := R }, chs := (s.put t u).chs } c.addr = .ok l.owner := e4
  rw [e4', Outcome.ok_bind]
  have hc3 : ((s.put t u).setRegs R).chs[l.owner]? = some c := hc2
  have e5 := PS.loc_eq hc3
  have e5' : PS.loc { w := { (s.put t u).w with regs := R }, chs := (s.put t u).chs } l.owner =
    .ok ⟨((s.put t u).setRegs R).w, c⟩ := e5
  rw [e5', Outcome.ok_bind]
  simp only
  have hcu : c = u.c := by
    rw [ho] at hc2
    exact Option.some.inj (hc2.symm.trans hc1)
  rw [if_pos (Or.inr (by rw [hcu]))]
  obtain ⟨v, A3, L3, e6, F⟩ := sfree_ok (C := C) (B2.at hc3 hg2) hk2
  rw [hp2] at e6
  rw [e6, Outcome.ok_bind]
  refine ⟨_, rfl, ?_⟩
  obtain ⟨rfl, _⟩ := F.kept hleak
  have hset := PS.put_self hc3
  show PInv Ω cl (((s.put t u).setRegs R).put l.owner ⟨((s.put t u).setRegs R).w, c⟩) (G.drain t)
  rw [hset]
  exact I2

/-- C78, second part, is false as well: a block of 1048545 to 1048560 bytes that is allocated and freed by the same thread
is lost. Whatever is called from then on, no block ever gets one of its bytes again, and the source never gets back all
its blocs. -/
theorem C78_lost_forever {C : Config} {X : POp → Prop} {s : PS} {G : PSpec} (hf : C.reallocFactor ≠ 0) (h : PReach C X s G)
    {t n : Nat} (ht : t < s.chs.length) (h1 : 1048545 ≤ n) (h2 : n ≤ 1048560) (hm : HasMem s n) :
    ∃ s1 r s2, posixMalloc C 0 s t n = .ok (s1, r) ∧ r ≠ 0 ∧ posixFree C s1 t r = .ok s2 ∧
      ∀ s' G', PFrom C X s2 ((G.after (.malloc t 0 n) r).after (.free t r) 0) s' G' →
        (∀ m ∈ G'.live, ∀ x, m.Byte x → ¬ (r ≤ x ∧ x < r + n)) ∧ 0 < s'.w.src.counter := by
  have I := h.inv (cl := False) hf False.elim
  have hp : PSize n := by unfold PSize; omega
  have hr : reqSize 0 n = n := by unfold reqSize; rw [if_neg (by omega), if_neg (by omega)]; rfl
  rcases memalign_op (C := C) (b := 0) (n := n) I ht (Or.inl (by omega)) (by rw [hr]; exact hp) False.elim with
    ⟨h3, _⟩ | ⟨s1, r, e, hr0, _, _, I1, _⟩
  · exact absurd (by rw [hr]; exact hm) h3
  have e : posixMalloc C 0 s t n = .ok (s1, r) := e
  obtain ⟨z, hz, h3⟩ := malloc_size I ht (by omega) hp e
  have hadd : (G.drain t).add t r n (decide (0 ≤ 1)) = ⟨⟨t, r, n, true⟩ :: G.live, (G.drain t).pend⟩ := by
    unfold PSpec.add; rw [if_neg hr0]; rfl
  rw [hadd] at I1
  have hmem : (⟨t, r, n, true⟩ : PBlock) ∈ (⟨t, r, n, true⟩ : PBlock) :: G.live := List.mem_cons_self
  obtain ⟨z', hz', hge, _⟩ := getSize_op I1 hmem
  obtain rfl : z = z' := Outcome.ok.inj (hz.symm.trans hz')
  have hge : n ≤ z := hge
  have hc : calcChunkSize n = n + 16 := by rw [calc_eq (by omega)]; omega
  have hMB : MB2 = 2097152 := rfl
  unfold cutSize at h3
  rw [hc] at h3
  obtain ⟨s2, e2, I2⟩ := free_keeps (C := C) I1 hmem rfl rfl hz' (by omega) (by omega)
  refine ⟨s1, r, s2, e, hr0, e2, fun s' G' hF => ?_⟩
  obtain ⟨_, _, _, _, K2⟩ := id I2
  have hnd := List.pairwise_cons.1 K2.nodup
  have S : Sim (PSpec.drain ⟨⟨t, r, n, true⟩ :: G.live, (G.drain t).pend⟩ t)
      ((G.after (.malloc t 0 n) r).after (.free t r) 0) ⟨t, r, n, true⟩ := by
    have hG : G.after (.malloc t 0 n) r = ⟨⟨t, r, n, true⟩ :: G.live, (G.drain t).pend⟩ := hadd
    rw [hG]
    have hl : ∀ m ∈ G.live, m.ptr ≠ r := fun m hm => Ne.symm (hnd.1 m (List.mem_append_left _ hm))
    have hl' : ∀ m, m ∈ (PSpec.after ⟨⟨t, r, n, true⟩ :: G.live, (G.drain t).pend⟩ (.free t r) 0).live ↔ m ∈ G.live := by
      intro m
      unfold PSpec.after PSpec.del PSpec.drain
      simp only [List.mem_filter, List.mem_cons, decide_eq_true_eq]
      constructor
      · rintro ⟨rfl | h, h'⟩
        · exact absurd rfl h'
        · exact h
      · intro h; exact ⟨Or.inr h, hl m h⟩
    refine ⟨fun m => ?_, fun m => ?_, fun m hm => hl m ((hl' m).1 hm)⟩
    · rw [hl' m]; exact List.mem_cons
    · unfold PSpec.after PSpec.del PSpec.drain
      simp only [List.mem_filter, List.mem_append, List.mem_cons, decide_eq_true_eq]
      constructor
      · intro h; exact Or.inr h
      · rintro (⟨rfl | h, h'⟩ | h)
        · exact absurd rfl h'.2
        · exact absurd h'.1 (hl m h)
        · exact h
  obtain ⟨Ω', G1', I', S'⟩ := hF.sim hf I2 S hr0
  have hin := (S'.live _).2 (Or.inl rfl)
  constructor
  · intro m hm x hx hx'
    have hd := pairwise_mem (fun a b (h : PBlock.Disj a b) => (⟨Ne.symm h.1, fun x hx => h.2 x ⟨hx.2, hx.1⟩⟩ : PBlock.Disj b a))
      (List.pairwise_append.1 I'.disj.1).1 ((S'.live m).2 (Or.inr hm)) hin
      (fun he => S'.ptr m hm (by rw [he]))
    exact hd.2 x ⟨hx, hx'⟩
  · obtain ⟨H, L, P, B, K⟩ := I'
    obtain ⟨g, k, hg, hk, _⟩ := K.live _ hin
    obtain ⟨c, _, T⟩ := B.getH hg
    obtain ⟨d, hd, _⟩ := seg_of_has T.ch.wf hk.1
    have := List.length_pos_of_mem (mem_shapes.2 ⟨_, g, hg, hd⟩)
    rw [B.lin.cnt]
    omega

/-- Hypotheses of `C78_blocs_bounded_partial`: a process of two threads with one block, so with at most one bloc. -/
example : ∃ s r, PReach Config.default CleanOp s ⟨[⟨0, r, 100, true⟩], []⟩ ∧ s.w.src.counter ≤ 1 := by
  obtain ⟨s, r, h, _⟩ := sample_block (C := Config.default) (X := CleanOp) (by decide) (fun _ _ _ => trivial) (n := 100)
    (by omega) (by unfold PSize; omega) (by omega) (by show CleanSize (reqSize 0 100); unfold CleanSize reqSize; simp)
  exact ⟨s, r, h, (C78_blocs_bounded_partial (by decide) h).1⟩

/-- Hypotheses of `C78_lost_forever`. -/
example : ∃ s, PReach Config.default (fun _ => True) s ⟨[], []⟩ ∧ 0 < s.chs.length ∧ HasMem s 1048550 := by
  obtain ⟨s, h, hl, hm⟩ := sample_threads (C := Config.default) (X := fun _ => True) (by decide) (fun _ _ _ => trivial)
  exact ⟨s, h, by omega, hm _ (by omega)⟩

end MpcAlloc
