import Verif.DefaultInv

/-
Invariant of the process whose threads switch between the chains: the calls.
-/

namespace MpcAlloc

variable {Ω : Env} {e : ES} {G : SwSpec} {a buf : Nat} {A : AHeap} {Lb : List Block}

/-- The chain exists. -/
def Cur.Ok (e : ES) (k : Cur) : Prop := k ≠ .none ∧ ∀ i, k = .ch i → i < e.p.chs.length

/-- The blocks with a pointer in `Z` are kept. -/
def SwKeeps (e e' : ES) (G : SwSpec) (Z : Nat → Prop) : Prop :=
  ∀ p n pl o, G.Live p n pl o → Z p → ∀ x, p ≤ x → x < p + n → e'.p.w.mem x = e.p.w.mem x

theorem SwKeeps.mk {e e' : ES} {Z : Nat → Prop} (h1 : Keeps e.p e'.p G.P (fun l => Z l.ptr))
    (h2 : ∀ l ∈ G.E, Z l.ptr → ∀ x, l.Byte x → e'.p.w.mem x = e.p.w.mem x) : SwKeeps e e' G Z := by
  intro p n pl o h hz x x1 x2
  cases h with
  | ch hl => exact h1 _ hl hz x ⟨x1, x2⟩
  | egg hl => exact h2 _ hl hz x ⟨x1, x2⟩

theorem SwKeeps.trans {e e1 e2 : ES} {G G1 : SwSpec} {Z Z1 Z2 : Nat → Prop} (h1 : SwKeeps e e1 G Z1) (h2 : SwKeeps e1 e2 G1 Z2)
    (h : ∀ p n pl o, G.Live p n pl o → Z p → Z1 p ∧ G1.Live p n pl o ∧ Z2 p) : SwKeeps e e2 G Z := by
  intro p n pl o hl hz x x1 x2
  obtain ⟨h3, h4, h5⟩ := h p n pl o hl hz
  rw [h2 p n pl o h4 h5 x x1 x2, h1 p n pl o hl h3 x x1 x2]

theorem SwKeeps.weaken {e e1 : ES} {Z Z1 : Nat → Prop} (h1 : SwKeeps e e1 G Z1) (h : ∀ p, Z p → Z1 p) : SwKeeps e e1 G Z :=
  fun p n pl o hl hz => h1 p n pl o hl (h p hz)

/-- The blocks of the egg chain are in its buffer. -/
theorem CInv.rangeE (I : CInv e G a buf Ω A Lb) {l : Block} (hl : l ∈ G.E) :
    buf + 48 ≤ l.ptr ∧ l.ptr + l.len + 16 ≤ buf + MB2 := by
  obtain ⟨c, hc, c1, c2, _⟩ := I.ei.h.live.used l (I.sub.subset hl)
  obtain ⟨d, hd, d1, d2⟩ := seg_of_has I.ei.h.wf hc.1
  rw [I.ei.h.bufs, List.mem_singleton] at hd
  subst hd
  have := I.ei.h.wf.uptr_ge c
  simp only at d1 d2
  omega

/-- Two blocks of the egg chain. -/
theorem CInv.disjE (I : CInv e G a buf Ω A Lb) {l m : Block} (hl : l ∈ G.E) (hm : m ∈ G.E) (hne : l.ptr ≠ m.ptr) {x : Nat}
    (hx : l.Byte x) : ¬ m.Byte x := by
  obtain ⟨c, hc, c1, c2, _⟩ := I.ei.h.live.used m (I.sub.subset hm)
  have := other_block I.ei.h.wf I.ei.h.live hc (I.sub.subset hl) (by rw [c1]; exact hne) hx
  have := I.ei.h.wf.uptr_ge c
  intro h
  have h : m.ptr ≤ x ∧ x < m.ptr + m.len := h
  omega

/-- A chunk of the chain of a thread, and the buffer of the egg chain. -/
theorem CInv.outer (I : CInv e G a buf Ω A Lb) {H : List Gh} {L : List (Nat × Nat)} {D : List (Nat × Nat)}
    (B : PBase e.p H L ⟨D, Ω⟩) {t : Nat} {g : Gh} (hg : H[t]? = some g) {c : Ck} (hc : g.A.Used c) :
    c.addr + c.size ≤ buf ∨ buf + MB2 ≤ c.addr := by
  obtain ⟨cc, hcc, T⟩ := B.getH hg
  obtain ⟨d, hd, d1, d2⟩ := seg_of_has T.ch.wf hc.1
  have hdm : d ∈ shapes H := mem_shapes.2 ⟨_, g, hg, hd⟩
  have hm := (B.ext (buf, MB2) (by show (buf, MB2) ∈ Ω.blocs; rw [I.ei.blocs]; simp)).1
  have r1 := B.resD _ hm d (List.mem_append_left _ hdm) buf (Nat.le_refl _) (by simp only; omega)
  have r2 := B.resD _ hm d (List.mem_append_left _ hdm) (buf + MB2 - 1) (by simp only; omega) (by simp only; omega)
  have r3 := B.resD _ hm d (List.mem_append_left _ hdm) d.1
  simp only at r3
  omega

/-- Size of a block of the chain of a thread: its chunk is not in the buffer of the egg chain. -/
theorem CInv.sizeP (I : CInv e G a buf Ω A Lb) {l : PBlock} (hl : l ∈ G.P.live) :
    ∃ z, posixGetSize e.p.w.mem l.ptr = .ok z ∧ l.len ≤ z ∧ (l.ptr + z ≤ buf ∨ buf + MB2 ≤ l.ptr) ∧
      ∀ m ∈ G.P.live, m.ptr ≠ l.ptr → m.ptr + m.len ≤ l.ptr ∨ l.ptr + z ≤ m.ptr := by
  obtain ⟨z, h1, h2, h3⟩ := getSize_op I.ei.p hl
  refine ⟨z, h1, h2, ?_, h3⟩
  obtain ⟨H, L, P, B, K⟩ := I.ei.p
  obtain ⟨g, c, hg, hc, hq, hp, hfit, _⟩ := K.live l hl
  obtain ⟨cc, hcc, T⟩ := B.getH hg
  have W := T.ch.wf
  have hge := W.uptr_ge c
  have hroom := T.ch.room c hc
  have hr := W.has_range hc.1
  obtain ⟨g1, g2, g3⟩ := getChunkUnpadded_used W T.ch.mem hc
  have g1' : getChunkUnpadded e.p.w.mem l.ptr = .ok (c.addr + 15) := by rw [← hp]; exact g1
  have g3' : hSize e.p.w.mem (vLarge (c.addr + 15)) = c.size := g3
  have h4 : posixGetSize e.p.w.mem l.ptr = .ok (c.addr + c.size - l.ptr) := by
    unfold posixGetSize
    rw [if_neg (by omega), g1', Outcome.ok_bind, if_neg (by omega), Outcome.pure_eq]
    unfold getUsableSize
    rw [g3', sub64_eq (a := l.ptr) (by omega) (by omega), sub64_eq (a := c.size) (by omega) (by omega)]
    congr 1
    unfold sub64 add64
    omega
  rw [h1] at h4
  have h5 := Outcome.ok.inj h4
  have := I.outer B hg hc
  omega

/-- Blocks of the threads, live or waiting, are not in the buffer of the egg chain. -/
theorem CInv.rangeP (I : CInv e G a buf Ω A Lb) {l : PBlock} (hl : l ∈ G.P.live ++ G.P.pend) :
    l.ptr + l.len ≤ buf ∨ buf + MB2 ≤ l.ptr := by
  obtain ⟨H, L, P, B, K⟩ := I.ei.p
  rcases List.mem_append.1 hl with hl | hl
  · obtain ⟨g, c, hg, hc, hq, hp, hfit, _⟩ := K.live l hl
    obtain ⟨cc, hcc, T⟩ := B.getH hg
    have := I.outer B hg hc
    have := T.ch.wf.uptr_ge c
    omega
  · obtain ⟨g, c, hg, hq, hp, hfit⟩ := K.pend l hl
    obtain ⟨cc, hcc, T⟩ := B.getH hg
    have := I.outer B hg (T.q.used c hq)
    have := T.ch.wf.uptr_ge c
    omega

theorem CInv.ptr_ne (I : CInv e G a buf Ω A Lb) {l : PBlock} (hl : l ∈ G.P.live) {m : Block} (hm : m ∈ G.E) : m.ptr ≠ l.ptr := by
  have := I.rangeE hm
  obtain ⟨z, _, h1, h2, _⟩ := I.sizeP hl
  have h3 := I.rangeP (List.mem_append_left _ hl)
  obtain ⟨H, L, P, B, K⟩ := I.ei.p
  obtain ⟨g, c, hg, hc, hq, hp, hfit, _⟩ := K.live l hl
  obtain ⟨cc, hcc, T⟩ := B.getH hg
  have := I.outer B hg hc
  have := T.ch.wf.uptr_ge c
  omega

/-- Pointers are not NULL. -/
theorem CInv.ptr (I : CInv e G a buf Ω A Lb) {p n : Nat} {pl : Bool} {o : Cur} (h : G.Live p n pl o) : p ≠ 0 := by
  cases h with
  | ch hl => exact I.ei.p.ptr hl
  | egg hl => have := I.rangeE hl; omega

/-- Freeing a block of the chain of a thread. -/
theorem CInv.del_P (I : CInv e G a buf Ω A Lb) {l : PBlock} (hl : l ∈ G.P.live) (k : Cur) (t : Nat)
    (ht : l.owner = t ↔ k = .ch l.owner) : G.del k l.ptr = { G with P := G.P.del t l.ptr } := by
  unfold SwSpec.del PSpec.del
  congr 1
  · congr 2
    refine List.filter_congr (fun m hm => ?_)
    by_cases h : m.ptr = l.ptr
    · obtain rfl := I.ei.p.live_inj hm hl h
      rw [decide_eq_decide]
      constructor
      · rintro ⟨h1, h2⟩; exact ⟨h1, fun h3 => h2 (ht.1 h3).symm⟩
      · rintro ⟨h1, h2⟩; exact ⟨h1, fun h3 => h2 (ht.2 h3.symm)⟩
    · simp [h]
  · rw [List.filter_eq_self]
    intro m hm
    simpa using I.ptr_ne hl hm

/-- Freeing a block of the egg chain. -/
theorem CInv.del_E (I : CInv e G a buf Ω A Lb) {l : Block} (hl : l ∈ G.E) (k : Cur) :
    G.del k l.ptr = { G with E := G.E.filter (fun m => decide (m.ptr ≠ l.ptr)) } := by
  unfold SwSpec.del
  have h1 : G.P.live.filter (fun m => decide (m.ptr ≠ l.ptr)) = G.P.live := by
    rw [List.filter_eq_self]
    intro m hm
    simpa using (I.ptr_ne hm hl).symm
  have h2 : G.P.live.filter (fun m => decide (m.ptr = l.ptr ∧ Cur.ch m.owner ≠ k)) = [] := by
    rw [List.filter_eq_nil_iff]
    intro m hm
    have := (I.ptr_ne hm hl).symm
    simp [this]
  rw [h1, h2]
  rfl

theorem CInv.del_0 (I : CInv e G a buf Ω A Lb) (k : Cur) : G.del k 0 = G := by
  unfold SwSpec.del
  have h1 : G.P.live.filter (fun m => decide (m.ptr ≠ 0)) = G.P.live := by
    rw [List.filter_eq_self]
    intro m hm
    simpa using I.ei.p.ptr hm
  have h2 : G.P.live.filter (fun m => decide (m.ptr = 0 ∧ Cur.ch m.owner ≠ k)) = [] := by
    rw [List.filter_eq_nil_iff]
    intro m hm
    have := I.ei.p.ptr hm
    simp [this]
  have h3 : G.E.filter (fun m => decide (m.ptr ≠ 0)) = G.E := by
    rw [List.filter_eq_self]
    intro m hm
    have := I.rangeE hm
    simp; omega
  rw [h1, h2, h3]
  rfl

/-- The first lines of a call take back the blocks that wait. -/
theorem CInv.purge {C : Config} (I : CInv e G a buf Ω A Lb) {k : Cur} (hk : k.Ok e) :
    ∃ v u, e.loc k = .ok v ∧ purgeRfq (lightSource C) C v = .ok u ∧ CInv (e.put k u) (G.drain k) a buf Ω A Lb ∧
      SwKeeps e (e.put k u) G (fun _ => True) ∧ (e.put k u).p.chs.length = e.p.chs.length ∧ (k = .egg → u.c.addr = a) ∧
      (∀ t, k = .ch t → (e.put k u).p.chs[t]? = some u.c) ∧ (k = .egg → u = ⟨e.p.w, e.egg⟩) := by
  cases k with
  | none => exact absurd rfl hk.1
  | egg =>
    refine ⟨⟨e.p.w, e.egg⟩, ⟨e.p.w, e.egg⟩, rfl, ?_, I, fun _ _ _ _ _ _ _ _ _ => rfl, rfl, fun _ => I.addr, by rintro _ ⟨⟩,
      fun _ => rfl⟩
    unfold purgeRfq
    have hd : e.egg.dead = false := I.ei.h.inv.dead
    rw [if_neg (by simp [hd]), if_pos I.rfq]
  | ch t =>
    have ht := hk.2 t rfl
    have hc := List.getElem?_eq_getElem ht
    obtain ⟨u, e1, I1, k1, ad, os1⟩ := purge_eff (C := C) I.ei.p hc
    obtain ⟨I2, kE⟩ := I.ofP I1
    refine ⟨_, u, PS.loc_eq hc, e1, I2, SwKeeps.mk k1 (fun l hl _ => kE l hl), PS.put_len _ _ _, by rintro ⟨⟩, ?_, by rintro ⟨⟩⟩
    rintro _ ⟨⟩
    exact PS.put_get u ht

/-- Stores in a live block. -/
theorem CInv.storeD (I : CInv e G a buf Ω A Lb) {p n : Nat} {pl : Bool} {o : Cur} (h : G.Live p n pl o) {m' : Mem}
    (hm : ∀ x, ¬ (p ≤ x ∧ x < p + n) → m' x = e.p.w.mem x) :
    ∃ Ω', CInv (e.setMem m') G a buf Ω' A Lb ∧ SwKeeps e (e.setMem m') G (fun q => q ≠ p) := by
  cases h with
  | @ch l hl =>
    obtain ⟨I1, k1⟩ := store_eff I.ei.p hl hm
    obtain ⟨I2, kE⟩ := I.ofP I1
    exact ⟨Ω, I2, SwKeeps.mk k1 (fun l hl _ => kE l hl)⟩
  | @egg l hl =>
    obtain ⟨I1, k1⟩ := I.storeE hl hm
    refine ⟨_, I1, SwKeeps.mk (fun l hl _ => k1 l hl trivial) (fun m hm' hne x hx => hm x ?_)⟩
    exact I.disjE hm' hl hne hx

theorem curMemalign_ch (C : Config) (e : ES) (t b n : Nat) :
    curMemalign C e (.ch t) b n = (posixMemalign C e.p t b n >>= fun x => .ok (⟨x.1, e.egg⟩, x.2)) := by
  unfold curMemalign posixMemalign ES.loc
  simp only
  cases e.p.loc t with
  | ok u =>
    rw [Outcome.ok_bind, Outcome.ok_bind]
    cases purgeRfq (lightSource C) C u with
    | ok v =>
      rw [Outcome.ok_bind, Outcome.ok_bind]
      cases allocAlign (lightSource C) v b (if n = 0 then 1 else n) with
      | ok w => rfl
      | _ => rfl
    | _ => rfl
  | _ => rfl

theorem PSize.egg {b n : Nat} (h : PSize (reqSize b n)) : SizeOK [(buf, MB2)] b (if n = 0 then 1 else n) := by
  unfold PSize reqSize at h
  right
  refine ⟨?_, fun y hy => ?_⟩
  · have := h.1
    omega
  · rw [List.mem_singleton] at hy; subst hy; simp only; omega

/-- The size of the last block of the egg chain may be lowered. -/
theorem CInv.shrink {P : PSpec} {E : List Block} {r n n' : Nat} {pl : Bool}
    (I : CInv e ⟨P, ⟨r, n', pl⟩ :: E⟩ a buf Ω A (⟨r, n', pl⟩ :: Lb)) (hs : E.Sublist Lb) (h : n ≤ n') :
    CInv e ⟨P, ⟨r, n, pl⟩ :: E⟩ a buf Ω A (⟨r, n, pl⟩ :: Lb) := by
  refine ⟨⟨I.ei.p, I.ei.h.shrink h, I.ei.blocs, I.ei.mine, ?_, I.ei.disj, I.ei.high⟩, I.addr, I.ts, I.rfq, I.base, I.low, I.own,
    hs.cons_cons _, ?_⟩
  · intro t ht
    obtain ⟨h1, l, hl, h2, h3⟩ := I.ei.ths t ht
    rcases List.mem_cons.1 hl with rfl | hl
    · exact absurd h2 (I.apart _ List.mem_cons_self t ht)
    · exact ⟨h1, l, List.mem_cons_of_mem _ hl, h2, h3⟩
  · intro l hl
    rcases List.mem_cons.1 hl with rfl | hl
    · exact I.apart ⟨r, n', pl⟩ List.mem_cons_self
    · exact I.apart l (List.mem_cons_of_mem _ hl)

/-- Allocation on the chain of the thread. -/
theorem CInv.memalign {C : Config} (hf : C.reallocFactor ≠ 0) (I : CInv e G a buf Ω A Lb) {k : Cur} (hk : k.Ok e) {b n : Nat}
    (hb : GoodBound b) (hsz : PSize (reqSize b n)) :
    (k ≠ .egg ∧ ¬ HasMem e.p (reqSize b n) ∧ curMemalign C e k b n = .ub) ∨
    ∃ e' r Ω' A' Lb', curMemalign C e k b n = .ok (e', r) ∧
      CInv e' ((G.drain k).add k r n (decide (b ≤ 1))) a buf Ω' A' Lb' ∧ SwKeeps e e' G (fun _ => True) ∧
      e'.p.chs.length = e.p.chs.length ∧ (r ≠ 0 → Aligned b r) ∧
      (r = 0 → k = .egg ∧ A.Lacks b (if n = 0 then 1 else n)) := by
  cases k with
  | none => exact absurd rfl hk.1
  | egg =>
    right
    obtain ⟨v, u, e1, e2, _, _, _, _, _, e3⟩ := I.purge (C := C) hk
    obtain rfl := e3 rfl
    obtain ⟨w, r, Ω', A', ex, I', _, _, _, k1, k2, _, al, _⟩ := I.eggOp hf (op := .alloc b (if n = 0 then 1 else n))
      ⟨hb, hsz.egg⟩ (by rintro _ _ ⟨⟩) (by rintro _ _ ⟨⟩)
    obtain ⟨al1, al2⟩ := al _ _ rfl
    have ex' : allocAlign (lightSource C) ⟨e.p.w, e.egg⟩ b (if n = 0 then 1 else n) = .ok (w, r) := ex
    refine ⟨e.put .egg w, r, Ω', A', account Lb (.alloc b n) r, ?_, ?_, SwKeeps.mk k1 ?_, rfl, al1, fun h => ⟨rfl, al2 h (by split <;> omega)⟩⟩
    · unfold curMemalign
      rw [e1, Outcome.ok_bind, e2, Outcome.ok_bind, ex', Outcome.ok_bind]
      rfl
    · unfold SwSpec.drain SwSpec.add
      unfold account at I' ⊢
      simp only at I' ⊢
      by_cases hr : r = 0
      · rw [if_pos hr] at I' ⊢
        rw [if_pos hr] at I'
        rw [if_pos hr]
        exact I'
      · rw [if_neg hr] at I' ⊢
        rw [if_neg hr] at I'
        rw [if_neg hr]
        exact I'.shrink I.sub (by split <;> omega)
    · intro l hl _ x hx
      refine k2 l hl ⟨l, ?_, rfl⟩ x hx
      unfold account
      simp only
      split
      · exact hl
      · exact List.mem_cons_of_mem _ hl
  | ch t =>
    have ht := hk.2 t rfl
    rw [curMemalign_ch]
    rcases memalign_op (C := C) I.ei.p ht hb hsz (fun h => h.elim) with ⟨h1, e1⟩ | ⟨s', r, e1, hr, a1, a2, I1, k1, len⟩
    · left
      refine ⟨by rintro ⟨⟩, h1, ?_⟩
      rw [e1]; rfl
    · right
      obtain ⟨I2, kE⟩ := I.ofP I1
      exact ⟨⟨s', e.egg⟩, r, Ω, A, Lb, by rw [e1]; rfl, I2, SwKeeps.mk k1 (fun l hl _ => kE l hl), len, fun _ => ⟨a1, a2⟩,
        fun h => absurd h hr⟩

/-- Same process, other cached part of the regions. -/
def ES.setRegs (e : ES) (R : Regions) : ES := { e with p := e.p.setRegs R }

/-- The search for the chain of a block of the chain of a thread. -/
theorem CInv.lookupP (I : CInv e G a buf Ω A Lb) {l : PBlock} (hl : l ∈ G.P.live) :
    ∃ R b c, regionGetMacroBloc e.p.w.mem e.p.w.regs l.ptr = .ok (R, b) ∧ b ≠ 0 ∧ readLE e.p.w.mem (b + 16) 8 = c.addr ∧
      c.addr ≠ 0 ∧ e.p.chs[l.owner]? = some c ∧ (e.setRegs R).chainAt c.addr = .ok (.ch l.owner) ∧ c.threadSafe = false ∧
      CInv (e.setRegs R) G a buf Ω A Lb ∧ c.addr ≠ a := by
  obtain ⟨R, b, c, e2, hb, e3, hcz, hc2, e4, hts, I2, hpz⟩ := lookup_eff I.ei.p hl
  have hne := I.addr_ne hc2
  refine ⟨R, b, c, e2, hb, e3, hcz, hc2, ?_, hts, (I.ofP I2).1, hne⟩
  unfold ES.chainAt
  rw [if_neg (by show c.addr ≠ e.egg.addr; rw [I.addr]; exact hne)]
  have e4' : (e.setRegs R).p.chainAt c.addr = .ok l.owner := e4
  rw [e4', Outcome.ok_bind, Outcome.pure_eq]

/-- The search for the chain of a block of the egg chain. -/
theorem CInv.lookupE (I : CInv e G a buf Ω A Lb) {l : Block} (hl : l ∈ G.E) :
    ∃ R, regionGetMacroBloc e.p.w.mem e.p.w.regs l.ptr = .ok (R, buf) ∧ (e.setRegs R).chainAt a = .ok .egg ∧
      CInv (e.setRegs R) G a buf Ω A Lb ∧ a ≠ 0 := by
  have hr := I.rangeE hl
  have hl := I.low
  obtain ⟨H, L, D, B, K⟩ := I.ei.p
  obtain ⟨R, e1, J⟩ := B.reg.lookup (d := (buf, MB2)) (p := l.ptr)
    (List.mem_append_right _ (by show (buf, MB2) ∈ Ω.blocs; rw [I.ei.blocs]; simp)) (by simp only; omega)
    (by simp only; omega) (by omega)
  refine ⟨R, e1, ?_, (I.ofP (P' := G.P) ⟨H, L, D, B.setRegs J, K⟩).1, ?_⟩
  · unfold ES.chainAt
    rw [if_pos (by show a = e.egg.addr; exact I.addr.symm)]
  · have := I.ei.h.wf.pbpos; omega

/-- The end of a free, for a block of the chain of a thread. -/
theorem CInv.releaseP {C : Config} (I : CInv e G a buf Ω A Lb) {l : PBlock} (hl : l ∈ G.P.live) {k : Cur} {la : Nat}
    (hla : ∀ c, e.p.chs[l.owner]? = some c → (c.addr = la ↔ k = .ch l.owner)) :
    ∃ e', curRelease C e la l.ptr = .ok e' ∧ CInv e' (G.del k l.ptr) a buf Ω A Lb ∧ SwKeeps e e' G (fun q => q ≠ l.ptr) ∧
      e'.p.chs.length = e.p.chs.length := by
  obtain ⟨R, b, c, e2, hb, e3, hcz, hc2, e4, hts, I2, hne⟩ := I.lookupP hl
  have hc3 : (e.setRegs R).p.chs[l.owner]? = some c := hc2
  have h1 := hla c hc2
  unfold curRelease
  rw [e2, Outcome.ok_bind]
  simp only
  rw [if_neg hb, e3, if_neg hcz]
  have e4' : ES.chainAt { p := { w := { e.p.w with regs := R }, chs := e.p.chs }, egg := e.egg } c.addr = .ok (.ch l.owner) := e4
  rw [e4', Outcome.ok_bind]
  have e5 : ES.loc { p := { w := { e.p.w with regs := R }, chs := e.p.chs }, egg := e.egg } (.ch l.owner) =
    .ok ⟨(e.setRegs R).p.w, c⟩ := PS.loc_eq hc3
  rw [e5, Outcome.ok_bind]
  simp only
  by_cases ho : c.addr = la
  · rw [if_pos (Or.inr ho)]
    obtain ⟨v, e6, I3, k3⟩ := free_eff (C := C) I2.ei.p hl hc3
    obtain ⟨I4, kE⟩ := I2.ofP I3
    rw [e6, Outcome.ok_bind]
    refine ⟨_, rfl, ?_, SwKeeps.mk (e' := (e.setRegs R).put (.ch l.owner) v) k3 (fun m hm _ => kE m hm), PS.put_len _ _ _⟩
    rw [I.del_P hl k l.owner ⟨fun _ => h1.1 ho, fun _ => rfl⟩]
    exact I4
  · rw [if_neg (by rw [hts]; simp [ho])]
    obtain ⟨v, e6, I3, k3⟩ := register_eff (t := l.owner + 1) I2.ei.p hl hc3 (by omega)
    obtain ⟨I4, kE⟩ := I2.ofP I3
    rw [e6, Outcome.ok_bind]
    refine ⟨_, rfl, ?_, SwKeeps.mk (e' := (e.setRegs R).put (.ch l.owner) v) k3 (fun m hm _ => kE m hm), PS.put_len _ _ _⟩
    rw [I.del_P hl k (l.owner + 1) ⟨fun h => by omega, fun h => absurd (h1.2 h) ho⟩]
    exact I4

/-- The end of a free, for a block of the egg chain. -/
theorem CInv.releaseE {C : Config} (hf : C.reallocFactor ≠ 0) (I : CInv e G a buf Ω A Lb) {l : Block} (hl : l ∈ G.E) {k : Cur}
    {la : Nat} : ∃ e' Ω' A' Lb', curRelease C e la l.ptr = .ok e' ∧ CInv e' (G.del k l.ptr) a buf Ω' A' Lb' ∧
      SwKeeps e e' G (fun q => q ≠ l.ptr) ∧ e'.p.chs.length = e.p.chs.length := by
  obtain ⟨R, e2, e4, I2, ha⟩ := I.lookupE hl
  have hlow := I.low
  obtain ⟨w, r, Ω', A', ex, I', _, _, _, k1, k2, _⟩ := I2.eggOp (C := C) hf (op := .free l.ptr) (Or.inr ⟨l, hl, rfl⟩)
    (by rintro _ _ ⟨⟩) (by rintro _ _ ⟨⟩)
  rw [exec_free] at ex
  obtain ⟨w', ex1, h⟩ := Outcome.bind_eq_ok ex
  obtain ⟨rfl, rfl⟩ := Prod.mk.inj (Outcome.ok.inj h)
  unfold curRelease
  rw [e2, Outcome.ok_bind]
  simp only
  rw [if_neg (by omega), I.own, if_neg ha]
  have e4' : ES.chainAt { p := { w := { e.p.w with regs := R }, chs := e.p.chs }, egg := e.egg } a = .ok .egg := e4
  rw [e4', Outcome.ok_bind]
  have e5 : ES.loc { p := { w := { e.p.w with regs := R }, chs := e.p.chs }, egg := e.egg } .egg =
    .ok ⟨(e.setRegs R).p.w, (e.setRegs R).egg⟩ := rfl
  rw [e5, Outcome.ok_bind]
  simp only
  rw [if_pos (Or.inl (by show e.egg.threadSafe = true; exact I.ts)), ex1, Outcome.ok_bind]
  refine ⟨_, Ω', A', account Lb (.free l.ptr) 0, rfl, ?_, SwKeeps.mk (e' := (e.setRegs R).put .egg w') (fun m hm _ => k1 m hm trivial)
    (fun m hm hne x hx => k2 m hm ⟨m, ?_, rfl⟩ x hx), rfl⟩
  · rw [I.del_E hl]
    exact I'
  · exact List.mem_filter.2 ⟨hm, by simpa using hne⟩

theorem drain_live {G : SwSpec} {k : Cur} {p n : Nat} {pl : Bool} {o : Cur} : (G.drain k).Live p n pl o ↔ G.Live p n pl o := by
  cases k with
  | ch t =>
    constructor
    · intro h; cases h with
      | ch h => exact .ch h
      | egg h => exact .egg h
    · intro h; cases h with
      | ch h => exact .ch (G := G.drain (.ch t)) h
      | egg h => exact .egg (G := G.drain (.ch t)) h
  | _ => exact Iff.rfl

/-- Free. -/
theorem CInv.free {C : Config} (hf : C.reallocFactor ≠ 0) (I : CInv e G a buf Ω A Lb) {k : Cur} (hk : k.Ok e) {p : Nat}
    (hp : p = 0 ∨ ∃ n pl o, G.Live p n pl o) :
    ∃ e' Ω' A' Lb', curFree C e k p = .ok e' ∧ CInv e' ((G.drain k).del k p) a buf Ω' A' Lb' ∧
      SwKeeps e e' G (fun q => q ≠ p) ∧ e'.p.chs.length = e.p.chs.length := by
  obtain ⟨v, u, e1, e2, I1, k1, len1, ad1, ad2, _⟩ := I.purge (C := C) hk
  unfold curFree
  rw [e1, Outcome.ok_bind, e2, Outcome.ok_bind]
  rcases hp with rfl | ⟨n, pl, o, hl⟩
  · rw [if_pos rfl]
    exact ⟨_, Ω, A, Lb, rfl, by rw [I1.del_0]; exact I1, k1.weaken (fun _ _ => trivial), len1⟩
  · rw [if_neg (I.ptr hl)]
    have hl1 := (drain_live (k := k)).2 hl
    have key : ∃ e' Ω' A' Lb', curRelease C (e.put k u) u.c.addr p = .ok e' ∧
        CInv e' ((G.drain k).del k p) a buf Ω' A' Lb' ∧ SwKeeps (e.put k u) e' (G.drain k) (fun q => q ≠ p) ∧
        e'.p.chs.length = (e.put k u).p.chs.length := by
      cases hl1 with
      | egg hm => exact I1.releaseE hf hm
      | @ch l hm =>
        obtain ⟨e', h⟩ := I1.releaseP (C := C) hm (k := k) (la := u.c.addr) (by
          intro c hc
          cases k with
          | none => exact absurd rfl hk.1
          | egg =>
            rw [ad1 rfl]
            exact ⟨fun h => absurd h (I1.addr_ne hc), by rintro ⟨⟩⟩
          | ch t =>
            have h2 := ad2 t rfl
            constructor
            · intro h
              obtain ⟨H, L, D, B, _⟩ := I1.ei.p
              rw [B.addrs _ _ _ _ hc h2 h]
            · intro h
              injection h with h
              subst h
              rw [hc] at h2
              rw [Option.some.inj h2])
        exact ⟨e', Ω, A, Lb, h⟩
    obtain ⟨e', Ω', A', Lb', h1, h2, h3, h4⟩ := key
    exact ⟨e', Ω', A', Lb', h1, h2, k1.trans h3 (fun q _ _ _ hq hz => ⟨trivial, drain_live.2 hq, hz⟩), h4.trans len1⟩

theorem add_keep {G : SwSpec} {k : Cur} {p n r z : Nat} {pl pl' : Bool} {o : Cur} (h : G.Live p n pl o) :
    (G.add k r z pl').Live p n pl o := by
  cases k with
  | none => exact h
  | egg =>
    unfold SwSpec.add
    simp only
    split
    · exact h
    · cases h with
      | ch h => exact .ch (G := ⟨G.P, _⟩) h
      | egg h => exact .egg (G := ⟨G.P, _⟩) (List.mem_cons_of_mem _ h)
  | ch t =>
    cases h with
    | ch h =>
      refine .ch (G := ⟨G.P.add t r z pl', G.E⟩) ?_
      unfold PSpec.add
      split
      · exact h
      · exact List.mem_cons_of_mem _ h
    | egg h => exact .egg (G := ⟨G.P.add t r z pl', G.E⟩) h

theorem add_new {G : SwSpec} {k : Cur} {r z : Nat} {pl : Bool} (hk : k ≠ .none) (hr : r ≠ 0) : (G.add k r z pl).Live r z pl k := by
  cases k with
  | none => exact absurd rfl hk
  | egg =>
    unfold SwSpec.add
    simp only
    rw [if_neg hr]
    exact .egg (G := ⟨G.P, ⟨r, z, pl⟩ :: G.E⟩) (l := ⟨r, z, pl⟩) List.mem_cons_self
  | ch t =>
    refine .ch (G := ⟨G.P.add t r z pl, G.E⟩) (l := ⟨t, r, z, pl⟩) ?_
    unfold PSpec.add
    rw [if_neg hr]
    exact List.mem_cons_self

/-- A new block is not one of the old ones. -/
theorem CInv.fresh {k : Cur} {r z : Nat} {pl : Bool} (I : CInv e (G.add k r z pl) a buf Ω A Lb) (hk : k ≠ .none) (hr : r ≠ 0)
    {p n : Nat} {pl' : Bool} {o : Cur} (h : G.Live p n pl' o) : r ≠ p := by
  cases k with
  | none => exact absurd rfl hk
  | egg =>
    have I' : CInv e ⟨G.P, ⟨r, z, pl⟩ :: G.E⟩ a buf Ω A Lb := by
      unfold SwSpec.add at I
      simp only at I
      rwa [if_neg hr] at I
    cases h with
    | ch h => exact I'.ptr_ne (l := _) h (m := ⟨r, z, pl⟩) List.mem_cons_self
    | @egg l h =>
      have hn := I'.ei.h.live.nodup
      have := I'.sub.map Block.ptr
      have hn2 := this.nodup hn
      rw [List.map_cons, List.nodup_cons] at hn2
      intro he
      exact hn2.1 (List.mem_map.2 ⟨l, h, he.symm⟩)
  | ch t =>
    have I' : CInv e ⟨⟨⟨t, r, z, pl⟩ :: G.P.live, G.P.pend⟩, G.E⟩ a buf Ω A Lb := by
      unfold SwSpec.add PSpec.add at I
      simp only at I
      rwa [if_neg hr] at I
    cases h with
    | @ch l h =>
      obtain ⟨H, L, D, B, K⟩ := I'.ei.p
      exact (List.pairwise_cons.1 K.nodup).1 l (List.mem_append_left _ h)
    | @egg l h => exact (I'.ptr_ne (l := ⟨t, r, z, pl⟩) List.mem_cons_self h).symm

/-- Adding a block and freeing another one commute. -/
theorem add_del {G : SwSpec} {k : Cur} {r n p : Nat} {pl : Bool} (hr : r ≠ 0) (hne : r ≠ p) :
    (((G.drain k).add k r n pl).drain k).del k p = ((G.drain k).del k p).add k r n pl := by
  cases k with
  | none => rfl
  | egg =>
    unfold SwSpec.add SwSpec.drain
    simp only
    rw [if_neg hr, if_neg hr]
    unfold SwSpec.del
    simp [hne]
  | ch t =>
    unfold SwSpec.add SwSpec.drain PSpec.add
    simp only
    rw [if_neg hr, if_neg hr]
    unfold SwSpec.del PSpec.drain
    simp [hne]

theorem drain_add_drain {G : SwSpec} {k : Cur} {n : Nat} {pl : Bool} : ((G.drain k).add k 0 n pl).drain k = G.drain k := by
  cases k with
  | none => rfl
  | egg => rfl
  | ch t =>
    unfold SwSpec.add SwSpec.drain PSpec.add PSpec.drain
    simp

theorem curMalloc_eq (C : Config) (h : Nat) (e : ES) (k : Cur) (n : Nat) : curMalloc C h e k n = curMemalign C e k h n := rfl

/-- Zeroed allocation. -/
theorem CInv.calloc {C : Config} (hf : C.reallocFactor ≠ 0) (I : CInv e G a buf Ω A Lb) {k : Cur} (hk : k.Ok e) {b n z : Nat}
    (hb : GoodBound b) (hlt : n * z < W64) (hsz : PSize (reqSize b (n * z))) :
    ((k ≠ .egg → ¬ HasMem e.p (reqSize b (n * z))) ∧ (k = .egg → A.Lacks b (if n * z = 0 then 1 else n * z)) ∧
      curCalloc C b e k n z = .ub) ∨
    ∃ e' r Ω' A' Lb', curCalloc C b e k n z = .ok (e', r) ∧
      CInv e' ((G.drain k).add k r (n * z) (decide (b ≤ 1))) a buf Ω' A' Lb' ∧ SwKeeps e e' G (fun _ => True) ∧
      e'.p.chs.length = e.p.chs.length ∧ r ≠ 0 ∧ Aligned b r ∧ ∀ i, i < n * z → e'.p.w.mem (r + i) = 0 := by
  unfold curCalloc
  rw [Nat.mod_eq_of_lt hlt, curMalloc_eq]
  rcases I.memalign hf hk hb hsz with ⟨h0, h1, e1⟩ | ⟨e1, r, Ω1, A1, L1, ex, I1, k1, len1, al, hz⟩
  · left
    refine ⟨fun _ => h1, fun h => absurd h h0, ?_⟩
    rw [e1]; rfl
  by_cases hr : r = 0
  · left
    obtain ⟨h2, h3⟩ := hz hr
    refine ⟨fun h => absurd h2 h, fun _ => h3, ?_⟩
    rw [ex, Outcome.ok_bind]
    simp only
    unfold memZero
    rw [if_pos hr]
    rfl
  right
  have hl := add_new (G := G.drain k) (z := n * z) (pl := decide (b ≤ 1)) hk.1 hr
  obtain ⟨Ω2, I2, k2⟩ := I1.storeD (m' := fun x => if r ≤ x ∧ x < r + n * z then 0 else e1.p.w.mem x) hl
    (fun x hx => if_neg hx)
  refine ⟨_, r, Ω2, A1, L1, ?_, I2, k1.trans k2 ?_, len1, hr, al hr, ?_⟩
  · rw [ex, Outcome.ok_bind]
    simp only
    unfold memZero
    rw [if_neg hr, Outcome.ok_bind]
    rfl
  · intro p m pl o hp _
    exact ⟨trivial, add_keep (drain_live.2 hp), (I1.fresh hk.1 hr (drain_live.2 hp)).symm⟩
  · intro i hi
    show (if r ≤ r + i ∧ r + i < r + n * z then 0 else e1.p.w.mem (r + i)) = 0
    rw [if_pos ⟨by omega, by omega⟩]

/-- Resize of a block of another chain. -/
theorem CInv.reallocInter {C : Config} (hf : C.reallocFactor ≠ 0) (I : CInv e G a buf Ω A Lb) {k : Cur} (hk : k.Ok e)
    {h n : Nat} {l : PBlock} (hl : l ∈ G.P.live) (hn : n ≠ 0) (hb : GoodBound h) (hsz : PSize (reqSize h n)) :
    (k ≠ .egg ∧ ¬ HasMem e.p (reqSize h n) ∧ curReallocInter C h e k l.ptr n = .ub) ∨
    ∃ e' r Ω' A' Lb', curReallocInter C h e k l.ptr n = .ok (e', r) ∧
      CInv e' (((G.drain k).del k l.ptr).add k r n (decide (h ≤ 1))) a buf Ω' A' Lb' ∧
      SwKeeps e e' G (fun q => q ≠ l.ptr) ∧ e'.p.chs.length = e.p.chs.length ∧ r ≠ l.ptr ∧ (r ≠ 0 → Aligned h r) ∧
      (r ≠ 0 → ∀ i, i < min l.len n → e'.p.w.mem (r + i) = e.p.w.mem (l.ptr + i)) ∧
      (r = 0 → k = .egg ∧ A.Lacks h n) := by
  have hL : G.Live l.ptr l.len l.plain (.ch l.owner) := .ch hl
  have hpz := I.ptr hL
  unfold curReallocInter
  rw [if_pos hn, curMalloc_eq]
  rcases I.memalign hf hk hb hsz with ⟨h0, h1, e1⟩ | ⟨e1, r, Ω1, A1, L1, ex, I1, k1, len1, al, hz⟩
  · left
    refine ⟨h0, h1, ?_⟩
    rw [e1]; rfl
  right
  rw [if_neg hn] at hz
  have hk1 : k.Ok e1 := ⟨hk.1, fun i hi => by rw [len1]; exact hk.2 i hi⟩
  have hL1 := add_keep (k := k) (r := r) (z := n) (pl' := decide (h ≤ 1)) (drain_live (k := k).2 hL)
  by_cases hr : r = 0
  · subst hr
    obtain ⟨e3, Ω3, A3, L3, e4, I3, k3, len3⟩ := I1.free (C := C) hf hk1 (Or.inr ⟨_, _, _, hL1⟩)
    refine ⟨e3, 0, Ω3, A3, L3, ?_, ?_, ?_, len3.trans len1, hpz.symm, fun h => absurd rfl h, fun h => absurd rfl h, hz⟩
    · rw [ex, Outcome.ok_bind]
      simp only
      rw [if_neg (by simp), Outcome.pure_eq, Outcome.ok_bind, if_pos hpz, e4, Outcome.ok_bind]
      rfl
    · rw [drain_add_drain] at I3
      have : ((G.drain k).del k l.ptr).add k 0 n (decide (h ≤ 1)) = (G.drain k).del k l.ptr := by
        cases k with
        | none => rfl
        | egg => rfl
        | ch t => rfl
      rw [this]
      exact I3
    · exact k1.trans k3 (fun p m pl o hp hz => ⟨trivial, add_keep (drain_live.2 hp), hz⟩)
  have hrp := I1.fresh hk.1 hr (drain_live.2 hL)
  have hnew := add_new (G := G.drain k) (z := n) (pl := decide (h ≤ 1)) hk.1 hr
  -- the source is apart from the new block
  have hsrc : ∃ z, posixGetSize e1.p.w.mem l.ptr = .ok z ∧ l.len ≤ z ∧ (r + n ≤ l.ptr ∨ l.ptr + z ≤ r) := by
    generalize hG : (G.drain k).add k r n (decide (h ≤ 1)) = G1 at I1 hL1 hnew
    have hl1 : l ∈ G1.P.live := by
      rw [← hG]
      cases k with
      | none => exact hl
      | egg =>
        unfold SwSpec.add
        simp only
        rw [if_neg hr]
        exact hl
      | ch t => exact (add_live hr).2 (Or.inr hl)
    obtain ⟨z, z1, z2, z3, z4⟩ := I1.sizeP hl1
    refine ⟨z, z1, z2, ?_⟩
    generalize hpl : decide (h ≤ 1) = pl at hnew
    cases hnew with
    | @ch m hm => exact z4 m hm hrp
    | @egg m hm =>
      have := I1.rangeE hm
      omega
  obtain ⟨z, e2, hz1, hdj⟩ := hsrc
  have hcnt : (if n < z then n else z) = min n z := by split <;> omega
  obtain ⟨m2, e3, cp, f2⟩ := memCopy_ok (m := e1.p.w.mem) (dst := r) (src := l.ptr) (n := min n z) (by omega)
  obtain ⟨Ω2, I2, k2⟩ := I1.storeD (m' := m2) hnew (fun x hx => f2 x (by omega))
  obtain ⟨e5, Ω3, A3, L3, e4, I3, k3, len3⟩ := I2.free (C := C) hf (e := e1.setMem m2) (k := k) hk1 (Or.inr ⟨_, _, _, hL1⟩)
  refine ⟨e5, r, Ω3, A3, L3, ?_, ?_, ?_, len3.trans len1, hrp, al, ?_, fun h => absurd h hr⟩
  · rw [ex, Outcome.ok_bind]
    simp only
    rw [if_pos ⟨hr, hpz⟩, e2, Outcome.ok_bind, hcnt, e3, Outcome.ok_bind, Outcome.pure_eq, Outcome.ok_bind, if_pos hpz, e4,
      Outcome.ok_bind]
    rfl
  · rw [add_del hr hrp] at I3; exact I3
  · intro p m pl o hp hz x x1 x2
    have hp1 := drain_live (k := k).2 hp
    have hp2 := add_keep (k := k) (r := r) (z := n) (pl' := decide (h ≤ 1)) hp1
    rw [k3 p m pl o hp2 hz x x1 x2, k2 p m pl o hp2 (I1.fresh hk.1 hr hp1).symm x x1 x2, k1 p m pl o hp trivial x x1 x2]
  · intro _ i hi
    rw [k3 _ _ _ _ hnew hrp _ (by omega) (by omega)]
    show m2 (r + i) = _
    rw [cp i (by omega)]
    exact k1 _ _ _ _ hL trivial _ (by omega) (by omega)

end MpcAlloc
