import Verif.PropsSlack
import Verif.ConcReach

/-!
C83 for interleaved calls: how much more than what the client asked for a block holds, at any point of an execution of the
threads.
-/

namespace MpcAlloc

open Queue (CPC PPC upd upd_same upd_ne)

variable {Ω : Env}

/-! ## Specification -/

/-- The call asks for a boundary of at most `M`. -/
def MBoundLe (M : Nat) : MCall → Prop
  | .malloc b _ => b ≤ M
  | .calloc b _ _ => b ≤ M
  | .free _ => True
  | .realloc _ b _ => b ≤ M

/-! ## Lemmas -/

/-- What the chunks of the blocks hold; see `Slim`. -/
def MSlim (C : Config) (w : Prop) (M : Nat) (k : MS) : Prop :=
  ∀ l ∈ k.G.all, l.plain = true ∨ w → Slack C (if l.plain then 0 else M) l.len (chunkBytes k.w.mem l.ptr)

section
variable {C : Config} {w : Prop} {M : Nat} {cl : Prop} {E : EndSet} {k k' : MS}

theorem MSlim.keep (h : MSlim C w M k)
    (hk : ∀ l ∈ k'.G.all, l ∈ k.G.all ∧ chunkBytes k'.w.mem l.ptr = chunkBytes k.w.mem l.ptr) : MSlim C w M k' := by
  intro l hl hp
  obtain ⟨h1, h2⟩ := hk l hl
  rw [h2]
  exact h l h1 hp

theorem MSlim.ret (h : MSlim C w M k) (t r : Nat) : MSlim C w M (k.ret t r).1 :=
  h.keep fun _ hl => ⟨(k.G.toLive_all r).mem_iff.1 hl, rfl⟩

theorem MSlim.go (h : MSlim C w M k) (t : Nat) (c : MPc) : MSlim C w M (k.go t c) := h

theorem StayF.all {α : Type} {F : Mem → Nat → α} {s s' : PS} {L : List PBlock} {Z : PBlock → Prop} (h : StayF F s s' ⟨L, []⟩ Z) {l : PBlock} (hl : l ∈ L) (hz : Z l) :
    F s'.w.mem l.ptr = F s.w.mem l.ptr := h l (by simpa using hl) hz

/-- The chunk of a new block. -/
theorem alloc_chunk {s : PS} {G : PSpec} (I : PInv Ω cl s G) {t b n r : Nat} {c : Chain} {u : CS Light}
    (hc : s.chs[t]? = some c) (hb : GoodBound b) (hsz : PSize (reqSize b n))
    (e : allocAlign (lightSource C) ⟨s.w, c⟩ b (if n = 0 then 1 else n) = .ok (u, r)) :
    NewChunk (reqSize b n) (chunkBytes u.w.mem r) := by
  obtain ⟨H, L, P, B, K⟩ := I
  obtain ⟨c', g, hc', hg, T⟩ := B.get (List.getElem?_eq_some_iff.1 hc).1
  obtain rfl : c' = c := Option.some.inj (hc'.symm.trans hc)
  have J := B.at hc hg
  have hN := reqSize_eq b n
  have h1 : (if n = 0 then 1 else n) ≠ 0 := by split <;> omega
  rcases salloc_ok (C := C) J hb h1 (hN ▸ hsz.1) (hN ▸ hsz.fits) with ⟨_, e3⟩ | ⟨v, d, A', L', e3, R⟩
  · rw [e3] at e; cases e
  obtain ⟨rfl, rfl⟩ := Prod.mk.inj (Outcome.ok.inj (e3.symm.trans e))
  obtain ⟨g1, _, g3⟩ := getChunkUnpadded_used R.inv.ch.wf R.inv.ch.mem ((R.used d).2 (Or.inr rfl))
  have hz : chunkBytes v.w.mem d.uptr = d.size := by
    have g1 : getChunkUnpadded v.w.mem d.uptr = .ok (d.addr + 15) := g1
    unfold chunkBytes
    rw [g1]
    exact g3
  rw [hz]
  have hk := R.kind
  rw [← hN] at hk
  exact newChunk_of hsz (R.inv.ch.wf.has_wf ((R.used d).2 (Or.inr rfl)).1).dvd hk

/-- A chunk has at least 32 bytes. -/
theorem chunk_ge {s : PS} {G : PSpec} (I : PInv Ω cl s G) {l : PBlock} (hl : l ∈ G.live) : 32 ≤ chunkBytes s.w.mem l.ptr := by
  obtain ⟨H, L, P, B, K⟩ := I
  obtain ⟨g, k, hg, hk, hp⟩ := K.chunk' B (List.mem_append_left _ hl)
  obtain ⟨c, _, T⟩ := B.getH hg
  rw [← hp, B.chunkBytes hg hk]
  exact (T.ch.wf.has_wf hk.1).ge

/-- The entry of a queue takes nothing more. -/
theorem Slack.wide {m len z : Nat} (h : Slack C m len z) (hz : 32 ≤ z) : Slack C m (max len 16) z := by
  rcases h with ⟨N, h1, h2, h3⟩ | ⟨h1, h2, h3⟩
  · refine Or.inl ⟨max N 16, by omega, by omega, ?_⟩
    by_cases hN : 16 ≤ N
    · rw [Nat.max_eq_left hN]; exact h3
    · rw [Nat.max_eq_right (by omega)]
      unfold NewChunk at h3 ⊢
      omega
  · exact Or.inr ⟨by omega, by omega, by omega⟩

/-- The new block. -/
theorem MSlim.add (h : MSlim C w M k') {G' : MSpec} {t o r n b : Nat} (hb : w → b ≤ M)
    (hG' : G' = k'.G.add t o r n (decide (b ≤ 1))) (hn : NewChunk (reqSize b n) (chunkBytes k'.w.mem r)) :
    MSlim C w M { k' with G := G' } := by
  subst hG'
  by_cases hr : r = 0
  · have : k'.G.add t o r n (decide (b ≤ 1)) = k'.G := by unfold MSpec.add; rw [if_pos hr]
    rw [this]; exact h
  · intro l hl hp
    rcases List.mem_cons.1 ((k'.G.add_all t o n (decide (b ≤ 1)) hr).mem_iff.1 hl) with rfl | hl
    · by_cases h1 : b ≤ 1
      · exact hn.slack (Or.inl h1)
      · simp only [decide_eq_false h1] at hp ⊢
        exact hn.slack (Or.inr (hb (hp.resolve_left (by simp))))
    · exact h l hl hp

/-- The boundary of a call that allocates. -/
theorem AllocOK.bound {t b n : Nat} {a : After} (h : AllocOK cl k t b n a)
    (hM : w → ∀ t c, k.call t = some c → MBoundLe M c.op) (hw : w) : b ≤ M := by
  obtain ⟨_, c, hc, h⟩ := h
  have := hM hw t c hc
  cases a with
  | ret => rcases h with h | h <;> rw [h] at this <;> exact this
  | zero =>
    obtain ⟨x, y, h, _⟩ := h
    rw [h] at this; exact this
  | move p => rw [h.1] at this; exact this

/-- A store into a block of the process. -/
theorem MSlim.store (h : MSlim C w M k) (I : PInv Ω cl k.ps ⟨k.G.all, []⟩) {l : PBlock} {m' : Mem} (hl : l ∈ k.G.all)
    (hm : ∀ x, ¬ l.Byte x → m' x = k.w.mem x) : MSlim C w M (k.setMem m') :=
  h.keep fun _ hj => ⟨hj, (store_stay (m' := m') I hl hm).all hj trivial⟩

/-- A free of a block of the process. -/
theorem MSlim.free (h : MSlim C w M k) (I : PInv Ω cl k.ps ⟨k.G.all, []⟩) {l : PBlock} {c : Chain} {u : CS Light} (hl : l ∈ k.G.all)
    (hc : k.ps.chs[l.owner]? = some c) (e : chainFree (lightSource C) C ⟨k.ps.w, c⟩ l.ptr = .ok u) :
    MSlim C w M { k.setPs (k.ps.put l.owner u) with G := k.G.drop l.ptr } := by
  refine h.keep fun m hm => ?_
  have hm : m ∈ (k.G.drop l.ptr).all := hm
  rw [k.G.drop_all] at hm
  obtain ⟨h1, h2⟩ := List.mem_filter.1 hm
  exact ⟨h1, (free_stay I hl hc e).all h1 (of_decide_eq_true h2)⟩

/-- A search. -/
theorem MSlim.look (h : MSlim C w M k) {p : Nat} {x : Option (Nat × Nat)} (e : k.look p = .ok (k', x)) :
    MSlim C w M k' ∧ k'.G = k.G ∧ k'.w.mem = k.w.mem := by
  unfold MS.look at e
  obtain ⟨⟨R, b⟩, _, e⟩ := Outcome.bind_eq_ok e
  simp only at e
  split at e
  · obtain ⟨rfl, _⟩ := Prod.mk.inj (Outcome.ok.inj e); exact ⟨h, rfl, rfl⟩
  split at e
  · cases e
  obtain ⟨i, _, e⟩ := Outcome.bind_eq_ok e
  obtain ⟨rfl, _⟩ := Prod.mk.inj (Outcome.ok.inj e); exact ⟨h, rfl, rfl⟩

theorem MSlim.purgeStep (h : MSlim C w M k) (I : MInv Ω cl E k) {t : Nat} {j : Job} {c : CPC} (hpc : k.pc t = .purge j c)
    (e : MpcAlloc.purgeStep C k t j c = .ok k') : MSlim C w M k' := by
  cases c with
  | dfree cur nxt =>
    obtain ⟨q, R, hq⟩ := I.q t
    have hcons : q.cons = .dfree cur nxt := by rw [hq.cons, hpc]; rfl
    obtain ⟨f1, f2, f3⟩ := Queue.inFlight_dfree R hcons
    obtain ⟨l, hl, hlo, hlp⟩ := (hq.fl cur).1 f1
    have hptr : readLE k.w.mem (cur + 8) 8 = cur := by
      rw [← hlp]
      refine I.ptr l hl (fun u hu => ?_)
      have := f2 u
      rw [hq.prod, ← hlp, ← hlo] at this
      exact this hu
    simp only [MpcAlloc.purgeStep] at e
    rw [hptr, ← hlp, ← hlo] at e
    obtain ⟨c, hc⟩ := I.inv.chain_some (MSpec.queued_all hl)
    rw [PS.loc_eq hc, Outcome.ok_bind] at e
    obtain ⟨u, e2, e⟩ := Outcome.bind_eq_ok e
    obtain rfl := Outcome.ok.inj e
    exact h.free I.inv (MSpec.queued_all hl) hc e2
  | idle | load | dread cur =>
    obtain rfl := Outcome.ok.inj e
    first
      | exact h
      | (split <;> exact h)
  | clearHead hd | swapTail hd =>
    obtain rfl := Outcome.ok.inj e
    exact h
  | walk hd tl cur =>
    simp only [MpcAlloc.purgeStep] at e
    split at e
    · obtain rfl := Outcome.ok.inj e; exact h
    split at e
    · cases e
    obtain rfl := Outcome.ok.inj e
    split <;> exact h
  | adv hd tl cur =>
    simp only [MpcAlloc.purgeStep] at e
    split at e
    · cases e
    obtain rfl := Outcome.ok.inj e; exact h

theorem MSlim.pushStep (h : MSlim C w M k) (I : MInv Ω cl E k) {t i r : Nat} {c : PPC} {o : Option Nat}
    (hpc : k.pc t = .push i c r) (e : MpcAlloc.pushStep k t i r c = .ok (k', o)) : MSlim C w M k' := by
  have hprod : ∀ q, QRel k i q → q.prod t = c := fun q h => by rw [h.prod]; simp only; rw [hpc]; simp [projP]
  cases c with
  | idle =>
    obtain ⟨rfl, _⟩ := Prod.mk.inj (Outcome.ok.inj e); exact h.ret t r
  | clear en =>
    obtain ⟨q, R, hq⟩ := I.q i
    obtain ⟨l, hl, ho, rfl⟩ := (hq.fl en).1 (Or.inl ⟨t, Or.inl (hprod q hq)⟩)
    have hwd := I.wide l hl
    simp only [MpcAlloc.pushStep] at e
    obtain ⟨v, _, e⟩ := Outcome.bind_eq_ok e
    split at e
    · cases e
    · obtain ⟨rfl, _⟩ := Prod.mk.inj (Outcome.ok.inj e)
      refine (h.store I.inv (MSpec.queued_all hl) (fun x hx => ?_)).go _ _
      unfold PBlock.Byte at hx
      rw [writeLE_other (by omega), writeLE_other (by omega)]
  | swap en =>
    obtain ⟨rfl, _⟩ := Prod.mk.inj (Outcome.ok.inj e); exact h
  | link en p =>
    obtain ⟨q, R, hq⟩ := I.q i
    simp only [MpcAlloc.pushStep] at e
    by_cases hp : p = 0
    · rw [if_pos hp] at e
      obtain ⟨rfl, _⟩ := Prod.mk.inj (Outcome.ok.inj e)
      exact MSlim.ret (k := { k with head := upd k.head i en }) h t r
    · rw [if_neg hp] at e
      obtain ⟨l, hl, ho, rfl⟩ := (hq.fl p).1 ((Queue.inFlight_link R (hprod q hq)).2 hp)
      have hwd := I.wide l hl
      obtain ⟨rfl, _⟩ := Prod.mk.inj (Outcome.ok.inj e)
      refine MSlim.ret (h.store I.inv (MSpec.queued_all hl) (fun x hx => ?_)) t r
      unfold PBlock.Byte at hx
      rw [writeLE_other (by omega)]

theorem MSlim.step (hf : C.reallocFactor ≠ 0) (I : MInv Ω cl E k) (hM : w → ∀ t c, k.call t = some c → MBoundLe M c.op)
    (h : MSlim C w M k) {t : Nat} {o : Option Nat} (e : mstep C k t = .ok (k', o)) : MSlim C w M k' := by
  unfold mstep at e
  have ok := I.th t
  cases hpc : k.pc t with
  | idle =>
    rw [hpc] at e
    obtain ⟨rfl, _⟩ := Prod.mk.inj (Outcome.ok.inj e); exact h
  | purge j c =>
    rw [hpc] at e
    simp only at e
    obtain ⟨k1, e1, e⟩ := Outcome.bind_eq_ok e
    obtain ⟨rfl, _⟩ := Prod.mk.inj (Outcome.ok.inj e)
    exact h.purgeStep I hpc e1
  | alloc b n a =>
    rw [hpc] at e ok
    simp only at e
    have ok : AllocOK cl k t b n a := ok
    have hb := ok.1
    have ht := I.lt (t := t) (by rw [hpc]; simp)
    obtain ⟨c, hc⟩ : ∃ c, k.ps.chs[t]? = some c := ⟨_, List.getElem?_eq_getElem (show t < k.ps.chs.length from ht)⟩
    rw [PS.loc_eq hc, Outcome.ok_bind] at e
    obtain ⟨⟨u, r⟩, e2, e⟩ := Outcome.bind_eq_ok e
    have h1 : MSlim C w M (k.setPs (k.ps.put t u)) := h.keep fun m hm =>
      ⟨hm, (alloc_stay I.inv hc hb.1 (show (if n = 0 then 1 else n) ≠ 0 by split <;> omega)
        ((reqSize_eq b n) ▸ hb.2.1) e2).all hm trivial⟩
    have h2 : MSlim C w M { k.setPs (k.ps.put t u) with G := k.G.add t t r n (decide (b ≤ 1)) } :=
      h1.add (fun hw => ok.bound hM hw) rfl (alloc_chunk I.inv hc hb.1 hb.2.1 e2)
    cases a with
    | ret => obtain ⟨rfl, _⟩ := Prod.mk.inj (Outcome.ok.inj e); exact h2.ret t r
    | zero => obtain ⟨rfl, _⟩ := Prod.mk.inj (Outcome.ok.inj e); exact h2
    | move p => obtain ⟨rfl, _⟩ := Prod.mk.inj (Outcome.ok.inj e); exact h2
  | zero r n =>
    rw [hpc] at e ok
    simp only at e
    obtain ⟨c, b, x, y, hc, hop, rfl, hr, hl, _⟩ := ok
    unfold memZero at e
    rw [if_neg hr, Outcome.ok_bind] at e
    obtain ⟨rfl, _⟩ := Prod.mk.inj (Outcome.ok.inj e)
    refine MSlim.ret (h.store I.inv (MSpec.hand_all hl) (fun z hz => ?_)) t r
    unfold PBlock.Byte at hz
    simp only at hz
    rw [if_neg hz]
  | copy r p n =>
    rw [hpc] at e ok
    simp only at e
    obtain ⟨c, b, l, hc, hop, hp, hn, hpr, ⟨hr, hl, _⟩, o1, o2, _⟩ := ok
    obtain ⟨g, eg, hg1, hg2⟩ := getSize_op I.inv (MSpec.hand_all o1)
    have hd := hg2 _ (MSpec.hand_all hl) (by simp only; rw [o2]; exact hpr.symm)
    simp only at hd hg1
    rw [o2] at hd eg
    obtain ⟨z, hz⟩ : ∃ z, z = if n < g then n else g := ⟨_, rfl⟩
    have hzn : z ≤ n ∧ z ≤ g := by rw [hz]; split <;> omega
    obtain ⟨m', em, _, c2⟩ := memCopy_ok (m := k.w.mem) (dst := r) (src := p) (n := z) (by omega)
    have eg : posixGetSize k.w.mem p = .ok g := eg
    rw [if_pos hr, eg, Outcome.ok_bind, ← hz, em, Outcome.ok_bind] at e
    obtain ⟨rfl, _⟩ := Prod.mk.inj (Outcome.ok.inj e)
    refine (h.store I.inv (MSpec.hand_all hl) (fun x hx => ?_)).go _ _
    unfold PBlock.Byte at hx
    simp only at hx
    exact c2 x (by omega)
  | look p r =>
    rw [hpc] at e
    simp only at e
    by_cases hp : p = 0
    · rw [if_pos hp] at e
      obtain ⟨rfl, _⟩ := Prod.mk.inj (Outcome.ok.inj e); exact h.ret t r
    rw [if_neg hp] at e
    obtain ⟨u, _, e⟩ := Outcome.bind_eq_ok e
    obtain ⟨⟨k1, x⟩, e1, e⟩ := Outcome.bind_eq_ok e
    obtain ⟨h1, hG, hm⟩ := h.look e1
    simp only at e
    split at e
    · split at e
      · cases e
      · obtain ⟨rfl, _⟩ := Prod.mk.inj (Outcome.ok.inj e); exact h1.ret t r
    · rename_i a i
      obtain ⟨v, _, e⟩ := Outcome.bind_eq_ok e
      split at e
      · obtain ⟨rfl, _⟩ := Prod.mk.inj (Outcome.ok.inj e); exact h1
      · obtain ⟨rfl, _⟩ := Prod.mk.inj (Outcome.ok.inj e)
        intro l' hl' hpl
        obtain ⟨l, hl, rfl⟩ := List.mem_map.1 ((k1.G.toQueue_all p).mem_iff.1 hl')
        by_cases hlp : l.ptr = p
        · rw [if_pos hlp] at hpl ⊢
          refine Slack.wide (h1 l hl hpl) ?_
          show 32 ≤ chunkBytes k1.w.mem l.ptr
          rw [hm]
          exact chunk_ge I.inv (by rw [hG] at hl; exact hl)
        · rw [if_neg hlp] at hpl ⊢
          exact h1 l hl hpl
  | lfree i p r =>
    rw [hpc] at e ok
    simp only at e
    obtain ⟨hit, okr, hpr, l, hl, rfl, rfl⟩ := ok
    obtain ⟨c, hc⟩ := I.inv.chain_some (MSpec.hand_all hl)
    rw [PS.loc_eq hc, Outcome.ok_bind] at e
    obtain ⟨u, e2, e⟩ := Outcome.bind_eq_ok e
    obtain ⟨rfl, _⟩ := Prod.mk.inj (Outcome.ok.inj e)
    exact (h.free I.inv (MSpec.hand_all hl) hc e2).ret t r
  | push i c r =>
    rw [hpc] at e
    exact h.pushStep I hpc e
  | rlook p b n =>
    rw [hpc] at e
    simp only at e
    obtain ⟨u, _, e⟩ := Outcome.bind_eq_ok e
    obtain ⟨⟨k1, x⟩, e1, e⟩ := Outcome.bind_eq_ok e
    obtain ⟨h1, _, _⟩ := h.look e1
    simp only at e
    split at e
    · cases e
    · obtain ⟨v, _, e⟩ := Outcome.bind_eq_ok e
      split at e <;> obtain ⟨rfl, _⟩ := Prod.mk.inj (Outcome.ok.inj e) <;> exact h1
  | rlocal i p b n =>
    rw [hpc] at e ok
    simp only at e
    obtain ⟨hit, l, ⟨⟨hb, hsz, hcl⟩, hp, hn, hs, c0, hc0, hop, hl, rfl, h3, h4⟩, rfl⟩ := ok
    obtain ⟨c, hc⟩ := I.inv.chain_some (MSpec.hand_all hl)
    have hreq : alignedSize b n = reqSize b n := by rw [reqSize_eq, if_neg hn]
    have hsf : ¬ (l.owner ≠ t ∧ ¬ E.may) := fun h => hit.elim (fun e => h.1 e) (fun e => h.2 (E.ok _ e))
    rw [PS.loc_eq hc, Outcome.ok_bind] at e
    obtain ⟨⟨u, r⟩, e2, e⟩ := Outcome.bind_eq_ok e
    obtain ⟨rfl, _⟩ := Prod.mk.inj (Outcome.ok.inj e)
    refine MSlim.ret ?_ t r
    obtain ⟨st, h5⟩ := realloc_stay I.inv (MSpec.hand_all hl) hc hf hb hn (hreq ▸ hsz) (hs.resolve_left hsf) e2
    rcases h5 with ⟨hr, hps, hz⟩ | ⟨hr, hz⟩
    · simp only [if_pos hr]
      intro m' hm' hpl
      have hm' : m' ∈ (k.G.resize l.ptr n).all := hm'
      rw [k.G.resize_all] at hm'
      obtain ⟨m, hm, rfl⟩ := List.mem_map.1 hm'
      show Slack C _ _ (chunkBytes (k.ps.put l.owner u).w.mem _)
      rw [hps]
      unfold PBlock.relen at hpl ⊢
      by_cases hml : m.ptr = l.ptr
      · rw [if_pos hml]
        simp only
        rw [hml]
        exact Or.inr hz
      · rw [if_neg hml] at hpl ⊢
        exact h m hm hpl
    · simp only [if_neg hr]
      have h1 : MSlim C w M { k.setPs (k.ps.put l.owner u) with G := k.G.drop l.ptr } := by
        refine h.keep fun m hm => ?_
        have hm : m ∈ (k.G.drop l.ptr).all := hm
        rw [k.G.drop_all] at hm
        obtain ⟨g1, g2⟩ := List.mem_filter.1 hm
        exact ⟨g1, st.all g1 (of_decide_eq_true g2)⟩
      rw [hreq] at hz
      refine h1.add (fun hw => ?_) rfl hz
      have := hM hw t c0 hc0
      rw [hop] at this
      exact this

end

/-- A step keeps the records of the calls. -/
theorem look_call {k k' : MS} {p : Nat} {x : Option (Nat × Nat)} (e : k.look p = .ok (k', x)) : k'.call = k.call := by
  unfold MS.look at e
  obtain ⟨⟨R, b⟩, _, e⟩ := Outcome.bind_eq_ok e
  simp only at e
  split at e
  · obtain ⟨rfl, _⟩ := Prod.mk.inj (Outcome.ok.inj e); rfl
  split at e
  · cases e
  obtain ⟨i, _, e⟩ := Outcome.bind_eq_ok e
  obtain ⟨rfl, _⟩ := Prod.mk.inj (Outcome.ok.inj e); rfl

theorem purgeStep_call {C : Config} {k k' : MS} {t : Nat} {j : Job} {c : CPC} (e : purgeStep C k t j c = .ok k') :
    k'.call = k.call := by
  cases c with
  | dfree cur nxt =>
    simp only [purgeStep] at e
    obtain ⟨u, e1, e⟩ := Outcome.bind_eq_ok e
    obtain ⟨u2, e2, e⟩ := Outcome.bind_eq_ok e
    obtain rfl := Outcome.ok.inj e
    rfl
  | idle | load | dread cur =>
    obtain rfl := Outcome.ok.inj e
    first
      | rfl
      | (split <;> rfl)
  | clearHead hd | swapTail hd =>
    obtain rfl := Outcome.ok.inj e
    rfl
  | walk hd tl cur =>
    simp only [purgeStep] at e
    split at e
    · obtain rfl := Outcome.ok.inj e; rfl
    split at e
    · cases e
    obtain rfl := Outcome.ok.inj e
    split <;> rfl
  | adv hd tl cur =>
    simp only [purgeStep] at e
    split at e
    · cases e
    obtain rfl := Outcome.ok.inj e; rfl

theorem mstep_call {C : Config} {k k' : MS} {t : Nat} {o : Option Nat} (e : mstep C k t = .ok (k', o)) : k'.call = k.call := by
  unfold mstep at e
  split at e
  · obtain ⟨rfl, _⟩ := Prod.mk.inj (Outcome.ok.inj e); rfl
  · obtain ⟨k1, e1, e⟩ := Outcome.bind_eq_ok e
    obtain ⟨rfl, _⟩ := Prod.mk.inj (Outcome.ok.inj e)
    exact purgeStep_call e1
  · obtain ⟨u, e1, e⟩ := Outcome.bind_eq_ok e
    obtain ⟨⟨u2, r⟩, e2, e⟩ := Outcome.bind_eq_ok e
    simp only at e
    split at e <;> obtain ⟨rfl, _⟩ := Prod.mk.inj (Outcome.ok.inj e) <;> rfl
  · obtain ⟨m, _, e⟩ := Outcome.bind_eq_ok e
    obtain ⟨rfl, _⟩ := Prod.mk.inj (Outcome.ok.inj e); rfl
  · obtain ⟨m, _, e⟩ := Outcome.bind_eq_ok e
    obtain ⟨rfl, _⟩ := Prod.mk.inj (Outcome.ok.inj e); rfl
  · split at e
    · obtain ⟨rfl, _⟩ := Prod.mk.inj (Outcome.ok.inj e); rfl
    obtain ⟨u, _, e⟩ := Outcome.bind_eq_ok e
    obtain ⟨⟨k1, x⟩, e1, e⟩ := Outcome.bind_eq_ok e
    have hk := look_call e1
    simp only at e
    split at e
    · split at e
      · cases e
      · obtain ⟨rfl, _⟩ := Prod.mk.inj (Outcome.ok.inj e); exact hk
    · obtain ⟨v, _, e⟩ := Outcome.bind_eq_ok e
      split at e <;> obtain ⟨rfl, _⟩ := Prod.mk.inj (Outcome.ok.inj e) <;> exact hk
  · obtain ⟨v, e1, e⟩ := Outcome.bind_eq_ok e
    obtain ⟨v2, e2, e⟩ := Outcome.bind_eq_ok e
    obtain ⟨rfl, _⟩ := Prod.mk.inj (Outcome.ok.inj e); rfl
  · rename_i i c r _
    cases c with
    | idle =>
      obtain ⟨rfl, _⟩ := Prod.mk.inj (Outcome.ok.inj e); rfl
    | clear en =>
      simp only [pushStep] at e
      obtain ⟨v, _, e⟩ := Outcome.bind_eq_ok e
      split at e
      · cases e
      · obtain ⟨rfl, _⟩ := Prod.mk.inj (Outcome.ok.inj e); rfl
    | swap en =>
      obtain ⟨rfl, _⟩ := Prod.mk.inj (Outcome.ok.inj e); rfl
    | link en q =>
      simp only [pushStep] at e
      split at e <;> obtain ⟨rfl, _⟩ := Prod.mk.inj (Outcome.ok.inj e) <;> rfl
  · obtain ⟨u, _, e⟩ := Outcome.bind_eq_ok e
    obtain ⟨⟨k1, x⟩, e1, e⟩ := Outcome.bind_eq_ok e
    have hk := look_call e1
    simp only at e
    split at e
    · cases e
    · obtain ⟨v, _, e⟩ := Outcome.bind_eq_ok e
      split at e <;> obtain ⟨rfl, _⟩ := Prod.mk.inj (Outcome.ok.inj e) <;> exact hk
  · obtain ⟨v, e1, e⟩ := Outcome.bind_eq_ok e
    obtain ⟨⟨v2, r⟩, e2, e⟩ := Outcome.bind_eq_ok e
    obtain ⟨rfl, _⟩ := Prod.mk.inj (Outcome.ok.inj e); rfl

theorem start_call (k : MS) (t : Nat) (op : MCall) : (k.start t op).call = upd k.call t (some ⟨op, k.w.mem, k.G.live⟩) := by
  cases op with
  | malloc b n => rfl
  | calloc b n j => rfl
  | free p => rfl
  | realloc p b n =>
    unfold MS.start
    simp only
    split
    · rfl
    · split <;> rfl

theorem start_all (k : MS) (t : Nat) (op : MCall) : (k.start t op).G.all.Perm k.G.all := by
  cases op with
  | malloc b n => exact List.Perm.refl _
  | calloc b n j => exact List.Perm.refl _
  | free p => exact k.G.toHand_all t p
  | realloc p b n =>
    unfold MS.start
    simp only
    split
    · exact List.Perm.refl _
    · split <;> exact k.G.toHand_all t p

/-- The calls under way are among those allowed. -/
theorem MReach.calls {C : Config} {X : MCall → Prop} {k : MS} (h : MReach C X k) : ∀ t c, k.call t = some c → X c.op := by
  induction h with
  | init => intro t c e; cases e
  | @call k t op _ _ _ _ hx ih =>
    intro u c e
    rw [start_call] at e
    by_cases hu : u = t
    · subst hu
      rw [upd_same] at e
      rw [← Option.some.inj e]
      exact hx
    · rw [upd_ne hu] at e
      exact ih u c e
  | step _ e ih => rw [mstep_call e]; exact ih
  | write _ _ _ ih => exact ih
  | spawn _ _ _ ih => exact ih

theorem MReach.slim {C : Config} {w : Prop} {M : Nat} {X : MCall → Prop} {k : MS} (hf : C.reallocFactor ≠ 0)
    (hX : w → ∀ op, X op → MBoundLe M op) (h : MReach C X k) : MSlim C w M k := by
  induction h with
  | init => intro l hl; cases hl
  | @call k t op _ _ _ _ _ ih =>
    refine ih.keep fun l hl => ⟨(start_all k t op).mem_iff.1 hl, ?_⟩
    rw [start_src]
  | @step k k' t o h e ih =>
    obtain ⟨Ω, _, I⟩ := h.inv (cl := False) hf False.elim
    exact ih.step hf I (fun c u r hr => hX c _ (h.calls u r hr)) e
  | @write k l a v h hl ha ih =>
    obtain ⟨Ω, _, I⟩ := h.inv (cl := False) hf False.elim
    exact ih.store I.inv (MSpec.live_all hl) (fun x hx => if_neg (fun h : x = a => hx (by rw [h]; exact ha)))
  | @spawn k s a z pb h hv e ih =>
    obtain ⟨Ω, _, I⟩ := h.inv (cl := False) hf False.elim
    exact ih.keep fun l hl => ⟨hl, (spawn_stay I.inv hv e).all hl trivial⟩

theorem MReach.mono {C : Config} {X Y : MCall → Prop} {k : MS} (hX : ∀ op, X op → Y op) (h : MReach C X k) :
    MReach C Y k := by
  induction h with
  | init h1 h2 h3 => exact .init h1 h2 h3
  | call _ h1 h2 h3 hx ih => exact ih.call h1 h2 h3 (hX _ hx)
  | step _ e ih => exact ih.step e
  | write _ h1 h2 ih => exact ih.write h1 h2
  | spawn _ h1 h2 ih => exact ih.spawn h1 h2

/-! ## Properties -/

/-- C83 for interleaved calls: at any point of any execution of the threads, the chunk of a block that was obtained without
boundary (live, in the hands of a call, or in a queue, where it counts for at least the 16 bytes of the entry) is the one of a
new block of the size that the client asked for last, or leaves what a resize in place may leave. Missing: the sizes that do
not fit (`PSize`). -/
theorem C83_interleaved_partial {C : Config} {X : MCall → Prop} {k : MS} (hf : C.reallocFactor ≠ 0) (h : MReach C X k)
    {l : PBlock} (hl : l ∈ k.G.all) (hp : l.plain = true) : Slack C 0 l.len (chunkBytes k.w.mem l.ptr) := by
  have := h.slim (w := False) (M := 0) hf False.elim l hl (Or.inl hp)
  rwa [if_pos hp] at this

/-- C83 for interleaved calls, with boundaries of at most `M`. Missing: the sizes that do not fit (`PSize`). -/
theorem C83_interleaved_bound_partial {C : Config} {X : MCall → Prop} {M : Nat} {k : MS} (hf : C.reallocFactor ≠ 0)
    (hX : ∀ op, X op → MBoundLe M op) (h : MReach C X k) {l : PBlock} (hl : l ∈ k.G.all) :
    Slack C M l.len (chunkBytes k.w.mem l.ptr) := by
  have := h.slim (w := True) hf (fun _ => hX) l hl (Or.inr trivial)
  split at this
  · unfold Slack at this ⊢
    rcases this with ⟨N, h1, h2, h3⟩ | h
    · exact Or.inl ⟨N, h1, by omega, h3⟩
    · exact Or.inr h
  · exact this

/-- C83, the process, for interleaved calls: the bytes of the blocs and of the cache, which share none, are at most what the
client asked for (16 bytes at least for a block in a queue), plus `keep_mem + keep_max`, plus for each block the greatest
boundary, 64 bytes and the greater of 2 MB and the threshold of `realloc`. Missing: requests that need a chunk of 1 MB
(`C78_refuted`), and the sizes that do not fit (`PSize`). -/
theorem C83_interleaved_bytes_partial {C : Config} {M : Nat} {k : MS} (hf : C.reallocFactor ≠ 0)
    (h : MReach C (fun op => MClean op ∧ MBoundLe M op) k) :
    ∃ D L, Blocs k.w D ∧ k.w.src.counter = D.length ∧ Cached k.w.mem k.w.src L ∧ (D ++ L).Pairwise NoShare ∧
      ((D ++ L).map Prod.snd).sum ≤ (k.G.all.map PBlock.len).sum +
        k.G.all.length * (max MB2 C.reallocThreshold + M + 64) + C.keepMem + C.keepMax := by
  obtain ⟨D, L, h1, h2, h3, h4, h5⟩ := C82_bytes_interleaved_partial hf (h.mono (Y := MClean) (fun _ h => h.1))
  refine ⟨D, L, h1, h2, h3, h4, ?_⟩
  have hs : ∀ l ∈ k.G.all, heldFor k.w.mem l.ptr ≤ l.len + (max MB2 C.reallocThreshold + M + 64) := by
    intro l hl
    have := C83_interleaved_bound_partial hf (fun _ h => h.2) h hl
    have hM : MB2 = 2097152 := rfl
    unfold heldFor
    rcases this with ⟨N, h1, h2, h3⟩ | h
    · have := h3.le (by omega)
      omega
    · unfold LeftAlone at h
      omega
  have := slim_sum (fun l => heldFor k.w.mem l.ptr) _ _ hs
  omega

/-- Hypotheses of the theorems: a thread is putting a block of another one in its queue. -/
example : ∃ k r, MReach Config.default (fun op => MClean op ∧ MBoundLe 64 op) k ∧ k.pc 1 = .push 0 (.link r 0) 0 := by
  obtain ⟨k, r, h, _, _, _, _, p1, _, _⟩ := msample_link (C := Config.default) (X := fun op => MClean op ∧ MBoundLe 64 op)
    (by decide) ⟨by show CleanSize (reqSize 0 100); unfold CleanSize reqSize; simp, Nat.zero_le _⟩ (fun _ => ⟨trivial, trivial⟩)
  exact ⟨k, r, h, p1⟩

end MpcAlloc
