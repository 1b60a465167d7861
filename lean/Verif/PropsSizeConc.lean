import Verif.PropsReallocProc
import Verif.PropsSlackEnds

/-!
C76 for interleaved calls, and when threads end while the others run: the chunk of a block, and with it its usable size, is the
same until the block is freed or moved; and the rule for a `realloc` that a thread does itself.
-/

namespace MpcAlloc

open Queue (CPC PPC upd upd_same upd_ne)

/-! ## Specification -/

/-- One event of the process of `MReach`: a call, a step, a store of the client into its blocks, a new thread. -/
inductive MNext (C : Config) (X : MCall → Prop) : MS → MS → Prop
  | call {k : MS} {t : Nat} {op : MCall} : t < k.chs.length → k.pc t = .idle → MValid k t op → X op → MNext C X k (k.start t op)
  | step {k k' : MS} {t : Nat} {o : Option Nat} : mstep C k t = .ok (k', o) → MNext C X k k'
  | write {k : MS} {l : PBlock} {a : Nat} {v : UInt8} : l ∈ k.G.live → l.Byte a →
      MNext C X k (k.setMem (fun x => if x = a then v else k.w.mem x))
  | spawn {k : MS} {s : PS} {a z pb : Nat} : PValid k.ps ⟨[], []⟩ (.spawn a z pb) → posixSpawn k.ps a z pb = .ok s →
      MNext C X k (k.spawned s)

/-- There is a block at the address `p`: of the client, in the hands of a call, or waiting for its owner. -/
def IsBlock (k : MS) (p : Nat) : Prop := ∃ l ∈ k.G.all, l.ptr = p

/-- Any number of events of the relation `R`, with a block at `p` in all states. -/
inductive Lasts (R : MS → MS → Prop) (p : Nat) (k : MS) : MS → Prop
  | refl : IsBlock k p → Lasts R p k k
  | tail {k1 k2 : MS} : Lasts R p k k1 → R k1 k2 → IsBlock k2 p → Lasts R p k k2

/-! ## Lemmas -/

/-- What `F` says of the blocks of both states is the same. -/
def SizesKept {α : Type} (F : Mem → Nat → α) (k k' : MS) : Prop :=
  ∀ l ∈ k.G.all, ∀ l' ∈ k'.G.all, l'.ptr = l.ptr → F k'.w.mem l.ptr = F k.w.mem l.ptr

theorem MReach.next {C : Config} {X : MCall → Prop} {k k' : MS} (h : MReach C X k) (e : MNext C X k k') : MReach C X k' := by
  cases e with
  | call h1 h2 h3 h4 => exact .call h h1 h2 h3 h4
  | step e => exact .step h e
  | write h1 h2 => exact .write h h1 h2
  | spawn h1 h2 => exact .spawn h h1 h2

section
variable {Ω : Env} {C : Config} {cl : Prop} {E : EndSet} {k k' k1 : MS} {α : Type} {F : Mem → Nat → α}

theorem SizesKept.same (h : ∀ l ∈ k.G.all, F k'.w.mem l.ptr = F k.w.mem l.ptr) : SizesKept F k k' :=
  fun l hl _ _ _ => h l hl

theorem SizesKept.mem (h : k'.w.mem = k.w.mem) : SizesKept F k k' := .same fun _ _ => by rw [h]

theorem SizesKept.ret (h : SizesKept F k k1) (t r : Nat) : SizesKept F k (k1.ret t r).1 :=
  fun l hl l' hl' hp => h l hl l' ((k1.G.toLive_all r).mem_iff.1 hl') hp

theorem SizesKept.store (hF : Seen F) (I : PInv Ω cl k.ps ⟨k.G.all, []⟩) {l : PBlock} {m' : Mem} (hl : l ∈ k.G.all)
    (hm : ∀ x, ¬ l.Byte x → m' x = k.w.mem x) (h : k'.w.mem = m') : SizesKept F k k' := by
  refine .same fun j hj => ?_
  rw [h]
  exact (store_stayF hF (m' := m') I hl hm).all hj trivial

theorem SizesKept.free (hF : Seen F) (I : PInv Ω cl k.ps ⟨k.G.all, []⟩) {l : PBlock} {c : Chain} {u : CS Light} (hl : l ∈ k.G.all)
    (hc : k.ps.chs[l.owner]? = some c) (e : chainFree (lightSource C) C ⟨k.ps.w, c⟩ l.ptr = .ok u)
    (hG : k'.G = k.G.drop l.ptr) (hm : k'.w.mem = u.w.mem) : SizesKept F k k' := by
  intro j hj j' hj' hp
  rw [hG, k.G.drop_all] at hj'
  have h2 := of_decide_eq_true (List.mem_filter.1 hj').2
  rw [hm]
  exact (free_stayF hF I hl hc e).all hj (by rw [← hp]; exact h2)

theorem look_mem {p : Nat} {x : Option (Nat × Nat)} (e : k.look p = .ok (k', x)) : k'.w.mem = k.w.mem := by
  unfold MS.look at e
  obtain ⟨⟨R, b⟩, _, e⟩ := Outcome.bind_eq_ok e
  simp only at e
  split at e
  · obtain ⟨rfl, _⟩ := Prod.mk.inj (Outcome.ok.inj e); rfl
  split at e
  · cases e
  obtain ⟨i, _, e⟩ := Outcome.bind_eq_ok e
  obtain ⟨rfl, _⟩ := Prod.mk.inj (Outcome.ok.inj e); rfl

theorem SizesKept.purgeStep (hF : Seen F) (I : MInv Ω cl E k) {t : Nat} {j : Job} {c : CPC} (hpc : k.pc t = .purge j c)
    (e : MpcAlloc.purgeStep C k t j c = .ok k') : SizesKept F k k' := by
  cases c with
  | dfree cur nxt =>
    obtain ⟨q, R, hq⟩ := I.q t
    have hcons : q.cons = .dfree cur nxt := by rw [hq.cons, hpc]; rfl
    obtain ⟨f1, f2, f3⟩ := Queue.inFlight_dfree R hcons
    obtain ⟨l, hl, hlo, hlp⟩ := (hq.fl cur).1 f1
    have hptr : readLE k.w.mem (cur + 8) 8 = cur := by
      rw [← hlp]
      refine I.ptr l hl (fun u hu => ?_)
      have := f2 u
      rw [hq.prod, ← hlp, ← hlo] at this
      exact this hu
    simp only [MpcAlloc.purgeStep] at e
    rw [hptr, ← hlp, ← hlo] at e
    obtain ⟨c, hc⟩ := I.inv.chain_some (MSpec.queued_all hl)
    rw [PS.loc_eq hc, Outcome.ok_bind] at e
    obtain ⟨u, e2, e⟩ := Outcome.bind_eq_ok e
    obtain rfl := Outcome.ok.inj e
    exact SizesKept.free hF I.inv (MSpec.queued_all hl) hc e2 rfl rfl
  | idle | load | dread cur =>
    obtain rfl := Outcome.ok.inj e
    first
      | exact .mem rfl
      | (split <;> exact .mem rfl)
  | clearHead hd | swapTail hd =>
    obtain rfl := Outcome.ok.inj e
    exact .mem rfl
  | walk hd tl cur =>
    simp only [MpcAlloc.purgeStep] at e
    split at e
    · obtain rfl := Outcome.ok.inj e; exact .mem rfl
    split at e
    · cases e
    obtain rfl := Outcome.ok.inj e
    split <;> exact .mem rfl
  | adv hd tl cur =>
    simp only [MpcAlloc.purgeStep] at e
    split at e
    · cases e
    obtain rfl := Outcome.ok.inj e; exact .mem rfl

theorem SizesKept.pushStep (hF : Seen F) (I : MInv Ω cl E k) {t i r : Nat} {c : PPC} {o : Option Nat}
    (hpc : k.pc t = .push i c r) (e : MpcAlloc.pushStep k t i r c = .ok (k', o)) : SizesKept F k k' := by
  have hprod : ∀ q, QRel k i q → q.prod t = c := fun q h => by rw [h.prod]; simp only; rw [hpc]; simp [projP]
  cases c with
  | idle =>
    obtain ⟨rfl, _⟩ := Prod.mk.inj (Outcome.ok.inj e); exact .mem rfl
  | clear en =>
    obtain ⟨q, R, hq⟩ := I.q i
    obtain ⟨l, hl, ho, rfl⟩ := (hq.fl en).1 (Or.inl ⟨t, Or.inl (hprod q hq)⟩)
    have hwd := I.wide l hl
    simp only [MpcAlloc.pushStep] at e
    obtain ⟨v, _, e⟩ := Outcome.bind_eq_ok e
    split at e
    · cases e
    · obtain ⟨rfl, _⟩ := Prod.mk.inj (Outcome.ok.inj e)
      refine SizesKept.store hF I.inv (MSpec.queued_all hl) (fun x hx => ?_) rfl
      unfold PBlock.Byte at hx
      simp only [MS.go, MS.setMem]
      rw [writeLE_other (by omega), writeLE_other (by omega)]
  | swap en =>
    obtain ⟨rfl, _⟩ := Prod.mk.inj (Outcome.ok.inj e); exact .mem rfl
  | link en p =>
    obtain ⟨q, R, hq⟩ := I.q i
    simp only [MpcAlloc.pushStep] at e
    by_cases hp : p = 0
    · rw [if_pos hp] at e
      obtain ⟨rfl, _⟩ := Prod.mk.inj (Outcome.ok.inj e)
      exact .mem rfl
    · rw [if_neg hp] at e
      obtain ⟨l, hl, ho, rfl⟩ := (hq.fl p).1 ((Queue.inFlight_link R (hprod q hq)).2 hp)
      have hwd := I.wide l hl
      obtain ⟨rfl, _⟩ := Prod.mk.inj (Outcome.ok.inj e)
      refine SizesKept.store hF I.inv (MSpec.queued_all hl) (fun x hx => ?_) rfl
      unfold PBlock.Byte at hx
      simp only [MS.setMem]
      rw [writeLE_other (by omega)]

theorem SizesKept.step (hF : Seen F) (hf : C.reallocFactor ≠ 0) (I : MInv Ω cl E k) {t : Nat} {o : Option Nat} (e : mstep C k t = .ok (k', o)) :
    SizesKept F k k' := by
  unfold mstep at e
  have ok := I.th t
  cases hpc : k.pc t with
  | idle =>
    rw [hpc] at e
    obtain ⟨rfl, _⟩ := Prod.mk.inj (Outcome.ok.inj e); exact .mem rfl
  | purge j c =>
    rw [hpc] at e
    simp only at e
    obtain ⟨k1, e1, e⟩ := Outcome.bind_eq_ok e
    obtain ⟨rfl, _⟩ := Prod.mk.inj (Outcome.ok.inj e)
    exact SizesKept.purgeStep hF I hpc e1
  | alloc b n a =>
    rw [hpc] at e ok
    simp only at e
    have ok : AllocOK cl k t b n a := ok
    have hb := ok.1
    have ht := I.lt (t := t) (by rw [hpc]; simp)
    obtain ⟨c, hc⟩ : ∃ c, k.ps.chs[t]? = some c := ⟨_, List.getElem?_eq_getElem (show t < k.ps.chs.length from ht)⟩
    rw [PS.loc_eq hc, Outcome.ok_bind] at e
    obtain ⟨⟨u, r⟩, e2, e⟩ := Outcome.bind_eq_ok e
    have h1 := fun m hm => (alloc_stayF hF I.inv hc hb.1 (show (if n = 0 then 1 else n) ≠ 0 by split <;> omega)
        ((reqSize_eq b n) ▸ hb.2.1) e2).all (l := m) hm trivial
    cases a with
    | ret => obtain ⟨rfl, _⟩ := Prod.mk.inj (Outcome.ok.inj e); exact .same h1
    | zero => obtain ⟨rfl, _⟩ := Prod.mk.inj (Outcome.ok.inj e); exact .same h1
    | move p => obtain ⟨rfl, _⟩ := Prod.mk.inj (Outcome.ok.inj e); exact .same h1
  | zero r n =>
    rw [hpc] at e ok
    simp only at e
    obtain ⟨c, b, x, y, hc, hop, rfl, hr, hl, _⟩ := ok
    unfold memZero at e
    rw [if_neg hr, Outcome.ok_bind] at e
    obtain ⟨rfl, _⟩ := Prod.mk.inj (Outcome.ok.inj e)
    refine SizesKept.store hF I.inv (MSpec.hand_all hl) (fun z hz => ?_) rfl
    unfold PBlock.Byte at hz
    simp only at hz
    simp only [MS.setMem]
    rw [if_neg hz]
  | copy r p n =>
    rw [hpc] at e ok
    simp only at e
    obtain ⟨c, b, l, hc, hop, hp, hn, hpr, ⟨hr, hl, _⟩, o1, o2, _⟩ := ok
    obtain ⟨g, eg, hg1, hg2⟩ := getSize_op I.inv (MSpec.hand_all o1)
    have hd := hg2 _ (MSpec.hand_all hl) (by simp only; rw [o2]; exact hpr.symm)
    simp only at hd hg1
    rw [o2] at hd eg
    obtain ⟨z, hz⟩ : ∃ z, z = if n < g then n else g := ⟨_, rfl⟩
    have hzn : z ≤ n ∧ z ≤ g := by rw [hz]; split <;> omega
    obtain ⟨m', em, _, c2⟩ := memCopy_ok (m := k.w.mem) (dst := r) (src := p) (n := z) (by omega)
    have eg : posixGetSize k.w.mem p = .ok g := eg
    rw [if_pos hr, eg, Outcome.ok_bind, ← hz, em, Outcome.ok_bind] at e
    obtain ⟨rfl, _⟩ := Prod.mk.inj (Outcome.ok.inj e)
    refine SizesKept.store hF (m' := m') I.inv (MSpec.hand_all hl) (fun x hx => ?_) rfl
    unfold PBlock.Byte at hx
    simp only at hx
    exact c2 x (by omega)
  | look p r =>
    rw [hpc] at e
    simp only at e
    by_cases hp : p = 0
    · rw [if_pos hp] at e
      obtain ⟨rfl, _⟩ := Prod.mk.inj (Outcome.ok.inj e); exact .mem rfl
    rw [if_neg hp] at e
    obtain ⟨u, _, e⟩ := Outcome.bind_eq_ok e
    obtain ⟨⟨k1, x⟩, e1, e⟩ := Outcome.bind_eq_ok e
    have hm := look_mem e1
    simp only at e
    split at e
    · split at e
      · cases e
      · obtain ⟨rfl, _⟩ := Prod.mk.inj (Outcome.ok.inj e); exact .mem hm
    · obtain ⟨v, _, e⟩ := Outcome.bind_eq_ok e
      split at e <;> obtain ⟨rfl, _⟩ := Prod.mk.inj (Outcome.ok.inj e) <;> exact .mem hm
  | lfree i p r =>
    rw [hpc] at e ok
    simp only at e
    obtain ⟨hit, okr, hpr, l, hl, rfl, rfl⟩ := ok
    obtain ⟨c, hc⟩ := I.inv.chain_some (MSpec.hand_all hl)
    rw [PS.loc_eq hc, Outcome.ok_bind] at e
    obtain ⟨u, e2, e⟩ := Outcome.bind_eq_ok e
    obtain ⟨rfl, _⟩ := Prod.mk.inj (Outcome.ok.inj e)
    exact SizesKept.ret (k1 := { k.setPs (k.ps.put l.owner u) with G := k.G.drop l.ptr })
      (SizesKept.free hF I.inv (MSpec.hand_all hl) hc e2 rfl rfl) t r
  | push i c r =>
    rw [hpc] at e
    exact SizesKept.pushStep hF I hpc e
  | rlook p b n =>
    rw [hpc] at e
    simp only at e
    obtain ⟨u, _, e⟩ := Outcome.bind_eq_ok e
    obtain ⟨⟨k1, x⟩, e1, e⟩ := Outcome.bind_eq_ok e
    have hm := look_mem e1
    simp only at e
    split at e
    · cases e
    · obtain ⟨v, _, e⟩ := Outcome.bind_eq_ok e
      split at e <;> obtain ⟨rfl, _⟩ := Prod.mk.inj (Outcome.ok.inj e) <;> exact .mem hm
  | rlocal i p b n =>
    rw [hpc] at e ok
    simp only at e
    obtain ⟨hit, l, ⟨⟨hb, hsz, hcl⟩, hp, hn, hs, c0, hc0, hop, hl, rfl, h3, h4⟩, rfl⟩ := ok
    obtain ⟨c, hc⟩ := I.inv.chain_some (MSpec.hand_all hl)
    have hreq : alignedSize b n = reqSize b n := by rw [reqSize_eq, if_neg hn]
    have hsf : ¬ (l.owner ≠ t ∧ ¬ E.may) := fun h => hit.elim (fun e => h.1 e) (fun e => h.2 (E.ok _ e))
    rw [PS.loc_eq hc, Outcome.ok_bind] at e
    obtain ⟨⟨u, r⟩, e2, e⟩ := Outcome.bind_eq_ok e
    obtain ⟨rfl, _⟩ := Prod.mk.inj (Outcome.ok.inj e)
    refine SizesKept.ret ?_ t r
    obtain ⟨st, h5⟩ := realloc_stayF hF I.inv (MSpec.hand_all hl) hc hf hb hn (hreq ▸ hsz) (hs.resolve_left hsf) e2
    rcases h5 with ⟨hr, hps, hz⟩ | ⟨hr, hz⟩
    · refine .mem ?_
      show (k.ps.put l.owner u).w.mem = k.w.mem
      rw [hps]; rfl
    · simp only [if_neg hr]
      intro j hj j' hj' hpj
      refine st.all hj fun h => ?_
      have hj' : j' ∈ ((k.G.drop l.ptr).add t l.owner r n (decide (b ≤ 1))).all := hj'
      have hd : j' ∈ (k.G.drop l.ptr).all → False := by
        rw [k.G.drop_all]
        intro h'
        exact of_decide_eq_true (List.mem_filter.1 h').2 (hpj.trans h)
      by_cases hr0 : r = 0
      · have : (k.G.drop l.ptr).add t l.owner r n (decide (b ≤ 1)) = k.G.drop l.ptr := by unfold MSpec.add; rw [if_pos hr0]
        rw [this] at hj'
        exact hd hj'
      · rcases List.mem_cons.1 (((k.G.drop l.ptr).add_all t l.owner n (decide (b ≤ 1)) hr0).mem_iff.1 hj') with rfl | hj'
        · exact hr (hpj.trans h)
        · exact hd hj'

theorem SizesKept.start (t : Nat) (op : MCall) : SizesKept F k (k.start t op) := .mem (by rw [start_src])

end

/-- The rule of `realloc`, for a thread that resizes a block in its chain. -/
theorem rule_step {Ω : Env} {C : Config} {cl : Prop} {E : EndSet} {k k' : MS} (hf : C.reallocFactor ≠ 0) (I : MInv Ω cl E k)
    {t i p b n r : Nat} (hpc : k.pc t = .rlocal i p b n) (e : mstep C k t = .ok (k', some r)) :
    (r = p ↔ LeftAlone C (chunkBytes k.w.mem p) n) ∧ (r = p → k'.w = k.w ∧ k'.chs = k.chs) := by
  unfold mstep at e
  have ok := I.th t
  rw [hpc] at e ok
  simp only at e
  obtain ⟨hit, l, ⟨⟨hb, hsz, hcl⟩, hp, hn, hs, c0, hc0, hop, hl, rfl, h3, h4⟩, rfl⟩ := ok
  obtain ⟨c, hc⟩ := I.inv.chain_some (MSpec.hand_all hl)
  have hreq : alignedSize b n = reqSize b n := by rw [reqSize_eq, if_neg hn]
  rw [PS.loc_eq hc, Outcome.ok_bind] at e
  obtain ⟨⟨u, q⟩, e2, e⟩ := Outcome.bind_eq_ok e
  obtain ⟨rfl, hq⟩ := Prod.mk.inj (Outcome.ok.inj e)
  obtain rfl : q = r := Option.some.inj hq
  obtain ⟨h1, h2⟩ := chainRealloc_rule I.inv (MSpec.hand_all hl) hc hf hb hn (hreq ▸ hsz)
    (hs.resolve_left (fun h => hit.elim (fun e => h.1 e) (fun e => h.2 (EndSet.ok _ _ e)))) e2
  refine ⟨h1, fun h => ?_⟩
  have h3 := h2 h
  have a : (k.ps.put l.owner u).w = k.w := by rw [h3]; rfl
  have b : (k.ps.put l.owner u).chs = k.chs := by rw [h3]; rfl
  exact ⟨a, b⟩

/-- With the default parameters, a chunk leaves a block alone at its size. -/
theorem again_of {Ω : Env} {cl : Prop} {s : PS} {G : PSpec} {l : PBlock} (I : PInv Ω cl s G) (hl : l ∈ G.live)
    (hp : l.plain = true) (h1 : l.len = 16 ∨ 24 ≤ l.len) (h2 : l.len < 2097105 ∨ 2097119 < l.len)
    (hs : Slack Config.default 0 l.len (chunkBytes s.w.mem l.ptr)) :
    LeftAlone Config.default (chunkBytes s.w.mem l.ptr) l.len := by
  have hge : l.len + 16 ≤ chunkBytes s.w.mem l.ptr := by
    obtain ⟨H, L, P, B, K⟩ := I
    obtain ⟨g, k, hg, hk, hq, hp', hfit, hpl⟩ := K.live l hl
    have hz : chunkBytes s.w.mem l.ptr = k.size := by rw [← hp']; exact B.chunkBytes hg hk
    have h16 : k.uptr = k.addr + 16 := by simp only [Ck.uptr, Ck.off, hpl hp]
    omega
  have hT : Config.default.reallocThreshold = 52428800 := rfl
  have hF : Config.default.reallocFactor = 2 := rfl
  unfold Slack at hs
  rcases hs with ⟨N, n1, n2, hs⟩ | hs
  · have hM : MB2 = 2097152 := rfl
    have : N = l.len := by omega
    unfold NewChunk at hs
    unfold LeftAlone
    rw [hT, hF]
    omega
  · exact hs

/-- One event at a time. -/
theorem Lasts.chunk {α : Type} {F : Mem → Nat → α} {R : MS → MS → Prop} {Y : MS → Prop} {p : Nat} {k k' : MS} (hY : ∀ {k k'}, Y k → R k k' → Y k' ∧ SizesKept F k k')
    (h0 : Y k) (h : Lasts R p k k') : (Y k' ∧ IsBlock k' p) ∧ F k'.w.mem p = F k.w.mem p := by
  induction h with
  | refl h => exact ⟨⟨h0, h⟩, rfl⟩
  | tail _ e hb ih =>
    obtain ⟨⟨h1, l, hl, hp⟩, h2⟩ := ih
    obtain ⟨h3, h4⟩ := hY h1 e
    refine ⟨⟨h3, hb⟩, ?_⟩
    obtain ⟨l', hl', hp'⟩ := hb
    have := h4 l hl l' hl' (hp'.trans hp.symm)
    rw [hp] at this
    rw [this, h2]

/-- One event of the interleaved calls. -/
theorem kept_next {α : Type} {F : Mem → Nat → α} (hF : Seen F) {C : Config} {X : MCall → Prop} {k k' : MS}
    (hf : C.reallocFactor ≠ 0) (h : MReach C X k) (e : MNext C X k k') : SizesKept F k k' := by
  obtain ⟨Ω, _, I⟩ := h.inv (cl := False) hf False.elim
  cases e with
  | call _ _ _ _ => exact SizesKept.start _ _
  | step e => exact SizesKept.step hF hf I e
  | @write l a v hl ha => exact SizesKept.store hF I.inv (MSpec.live_all hl) (fun x hx => if_neg (fun h : x = a => hx (by rw [h]; exact ha))) rfl
  | spawn hv e => exact .same fun l hl => (spawn_stayF hF I.inv hv e).all hl trivial

/-! ## Properties -/

/-- C76 for interleaved calls: no event changes the chunk of a block that is there before and after it. Missing: the sizes that
do not fit (`PSize`), and blocks with a boundary that are made larger by their owner (see `C14_refuted`). -/
theorem C76_interleaved_event_partial {C : Config} {X : MCall → Prop} {k k' : MS} {p : Nat} (hf : C.reallocFactor ≠ 0)
    (h : MReach C X k) (e : MNext C X k k') (hp : IsBlock k p) (hp' : IsBlock k' p) :
    chunkBytes k'.w.mem p = chunkBytes k.w.mem p := by
  obtain ⟨l, hl, rfl⟩ := hp
  obtain ⟨l', hl', hlp⟩ := hp'
  exact kept_next chunkBytes_seen hf h e l hl l' hl' hlp

/-- C76 for interleaved calls: as long as there is a block at the address `p`, whatever the threads do, its chunk is the same.
Missing: see `C76_interleaved_event_partial`. -/
theorem C76_interleaved_partial {C : Config} {X : MCall → Prop} {k k' : MS} {p : Nat} (hf : C.reallocFactor ≠ 0)
    (h : MReach C X k) (e : Lasts (MNext C X) p k k') : chunkBytes k'.w.mem p = chunkBytes k.w.mem p := by
  refine (Lasts.chunk (Y := MReach C X) (fun h e => ⟨h.next e, ?_⟩) h e).2
  exact fun l hl l' hl' hp => C76_interleaved_event_partial hf h e ⟨l, hl, rfl⟩ ⟨l', hl', hp⟩

/-- C76 for interleaved calls, the rule: a thread that resizes a block in the chain of which the block is gets the same address
exactly if the rule holds for the size of the chunk, and then changes neither the memory, nor the chains, nor the source.
Missing: see `C76_interleaved_event_partial`. -/
theorem C76_interleaved_rule_partial {C : Config} {X : MCall → Prop} {k k' : MS} {t i p b n r : Nat} (hf : C.reallocFactor ≠ 0)
    (h : MReach C X k) (hpc : k.pc t = .rlocal i p b n) (e : mstep C k t = .ok (k', some r)) :
    (r = p ↔ LeftAlone C (chunkBytes k.w.mem p) n) ∧ (r = p → k'.w = k.w ∧ k'.chs = k.chs) := by
  obtain ⟨Ω, _, I⟩ := h.inv (cl := False) hf False.elim
  exact rule_step hf I hpc e

/-- C76 for interleaved calls: if the rule holds, the step that resizes the block succeeds, whatever the kernel answers. -/
theorem C76_interleaved_inplace {C : Config} {X : MCall → Prop} {k : MS} {t i p b n : Nat} (hf : C.reallocFactor ≠ 0)
    (h : MReach C X k) (hpc : k.pc t = .rlocal i p b n) (hz : LeftAlone C (chunkBytes k.w.mem p) n) :
    ∃ k', mstep C k t = .ok (k', some p) := by
  obtain ⟨Ω, _, I⟩ := h.inv (cl := False) hf False.elim
  have ok := I.th t
  rw [hpc] at ok
  obtain ⟨hit, l, ⟨_, hp, hn, hs, c0, hc0, hop, hl, rfl, h3, h4⟩, rfl⟩ := ok
  obtain ⟨c, hc⟩ := I.inv.chain_some (MSpec.hand_all hl)
  have e : chainRealloc (lightSource C) C b ⟨k.ps.w, c⟩ l.ptr n = .ok (⟨k.ps.w, c⟩, l.ptr) := by
    obtain ⟨H, L, P, B, K⟩ := I.inv
    obtain ⟨g, q, hg, hk, hq, hp', hfit, hpl⟩ := K.live l (MSpec.hand_all hl)
    have T := B.th _ _ _ hc hg
    have J := B.at hc hg
    have hr := T.ch.wf.has_range hk.1
    have h1 : chunkBytes k.w.mem l.ptr = q.size := by rw [← hp']; exact B.chunkBytes hg hk
    rw [h1] at hz
    rw [← hp', srealloc_start J hk hn hf, if_pos ((reallocKeep_iff (by omega)).2 hz)]
  unfold mstep
  rw [hpc]
  simp only
  rw [PS.loc_eq hc, Outcome.ok_bind, e, Outcome.ok_bind]
  exact ⟨_, rfl⟩

/-- C76 for interleaved calls, with the default parameters: a thread that resizes a block of its chain, obtained without
boundary, to the size that it has leaves it alone, for 16 bytes and for 24 bytes or more, but for the 15 sizes just below 2 MB
of `C76_again_refuted`. Missing: the smaller sizes (see `C76_same_size_refuted`). -/
theorem C76_interleaved_again_partial {X : MCall → Prop} {k k' : MS} {t i b r : Nat} {l : PBlock} (h : MReach Config.default X k)
    (hl : l ∈ k.G.all) (hp : l.plain = true) (h1 : l.len = 16 ∨ 24 ≤ l.len) (h2 : l.len < 2097105 ∨ 2097119 < l.len)
    (hpc : k.pc t = .rlocal i l.ptr b l.len) (e : mstep Config.default k t = .ok (k', some r)) :
    r = l.ptr ∧ k'.w = k.w ∧ k'.chs = k.chs := by
  have hf : Config.default.reallocFactor ≠ 0 := by decide
  obtain ⟨Ω, _, I⟩ := h.inv (cl := False) hf False.elim
  obtain ⟨h3, h4⟩ := rule_step hf I hpc e
  have hs := C83_interleaved_partial hf h hl hp
  have key : LeftAlone Config.default (chunkBytes k.w.mem l.ptr) l.len :=
    again_of (s := k.ps) (G := ⟨k.G.all, []⟩) I.inv hl hp h1 h2 hs
  exact ⟨h3.2 key, h4 (h3.2 key)⟩

/-- C76 for interleaved calls, who resizes: the search of `realloc` leads to a resize in the chain of the block exactly if the
calling thread obtained the block; otherwise it goes on with the allocation of a new block. It changes no byte of the memory. -/
theorem C76_interleaved_who_partial {C : Config} {X : MCall → Prop} {k k' : MS} {t p b n : Nat} {o : Option Nat} {l : PBlock}
    (hf : C.reallocFactor ≠ 0) (h : MReach C X k) (hpc : k.pc t = .rlook p b n) (hl : l ∈ k.G.all) (hp : l.ptr = p)
    (e : mstep C k t = .ok (k', o)) :
    o = none ∧ k'.w.mem = k.w.mem ∧ k'.G = k.G ∧
      k'.pc t = if l.owner = t then .rlocal t p b n else .purge (.alloc b n (.move p)) .idle := by
  obtain ⟨Ω, _, I⟩ := h.inv (cl := False) hf False.elim
  have ht := I.lt (t := t) (by rw [hpc]; simp)
  have ok := I.th t
  rw [hpc] at ok
  obtain ⟨l1, _, _, _, _, c0, _, _, hl1, h2, _, _⟩ := ok
  obtain rfl : l1 = l := I.inv.live_inj (G := ⟨k.G.all, []⟩) (MSpec.hand_all hl1) hl (h2.trans hp.symm)
  obtain ⟨R, c, e1, hc, hts, J, haddr⟩ := I.look hl1
  obtain ⟨cu, hcu⟩ : ∃ c, k.chs[t]? = some c := ⟨_, List.getElem?_eq_getElem ht⟩
  have hloc := PS.loc_eq (s := k.ps) hcu
  have hloc2 := PS.loc_eq (s := MS.ps { k with w := { k.w with regs := R } }) hc
  rw [h2] at e1
  have hstep : mstep C k t = if c.addr = cu.addr then
      .ok (MS.go { k with w := { k.w with regs := R } } t (.rlocal l1.owner p b n), none)
    else .ok (MS.go { k with w := { k.w with regs := R } } t (.purge (.alloc b n (.move p)) .idle), none) := by
    unfold mstep
    rw [hpc]
    simp only
    rw [hloc, Outcome.ok_bind, e1, Outcome.ok_bind]
    simp only
    rw [hloc2, Outcome.ok_bind]
    simp only [hts, Bool.false_eq_true, or_false]
    rfl
  rw [hstep] at e
  by_cases ho : l1.owner = t
  · rw [if_pos ((haddr cu hcu).2 ho)] at e
    obtain ⟨rfl, rfl⟩ := Prod.mk.inj (Outcome.ok.inj e)
    refine ⟨rfl, rfl, rfl, ?_⟩
    show upd k.pc t _ t = _
    rw [upd_same, if_pos ho, ho]
  · rw [if_neg (fun h => ho ((haddr cu hcu).1 h))] at e
    obtain ⟨rfl, rfl⟩ := Prod.mk.inj (Outcome.ok.inj e)
    refine ⟨rfl, rfl, rfl, ?_⟩
    show upd k.pc t _ t = _
    rw [upd_same, if_neg ho]

/-- Hypotheses of the theorems: a thread resizes its block of 100 bytes to `n`. -/
theorem msample_rlocal {C : Config} (hf : C.reallocFactor ≠ 0) {n : Nat} (hn : n ≠ 0) (hs : PSize n) :
    ∃ k k' r, MReach C (fun _ => True) k ∧ k.pc 0 = .rlook r 0 n ∧ mstep C k 0 = .ok (k', none) ∧ k'.pc 0 = .rlocal 0 r 0 n ∧
      (⟨0, r, 100, true⟩ : PBlock) ∈ k'.G.all ∧ Lasts (MNext C (fun _ => True)) r k k' := by
  obtain ⟨k, r, h, hl, hh, ht, hp, hr, g1, g2, g3⟩ := msample_block hf (X := fun _ => True) trivial
  have hG : k.G = ⟨[⟨0, r, 100, true⟩], [], []⟩ := by rw [← g1, ← g2, ← g3]
  have hreq : reqSize 0 n = n := by unfold reqSize; rw [if_neg hn, if_neg (by omega)]; rfl
  have r1 := h.call (t := 0) (op := .realloc r 0 n) (by omega) (hp 0)
    ⟨Or.inl (by omega), by rw [hreq]; exact hs, Or.inr ⟨⟨0, r, 100, true⟩, by rw [g1]; simp, rfl, Or.inr (Or.inr (Or.inl rfl))⟩⟩ trivial
  obtain ⟨k1, hk1⟩ : ∃ k1, k1 = k.start 0 (.realloc r 0 n) := ⟨_, rfl⟩
  rw [← hk1] at r1
  have p1 : k1.pc 0 = .rlook r 0 n := by
    rw [hk1]; unfold MS.start; simp only; rw [if_neg hr, if_neg hn]; rfl
  have hb : (⟨0, r, 100, true⟩ : PBlock) ∈ k1.G.all := by
    rw [hk1]
    refine (start_all k 0 _).mem_iff.2 ?_
    rw [hG]; simp [MSpec.all]
  obtain ⟨Ω, _, I⟩ := r1.inv (cl := False) hf False.elim
  obtain ⟨k2, o, e, I2, _⟩ := I.rlook (C := C) p1
  obtain ⟨rfl, _, hG2, h3⟩ := C76_interleaved_who_partial hf r1 p1 hb rfl e
  rw [if_pos rfl] at h3
  have hb2 : (⟨0, r, 100, true⟩ : PBlock) ∈ k2.G.all := by rw [hG2]; exact hb
  exact ⟨k1, k2, r, r1, p1, e, h3, hb2, (Lasts.refl ⟨_, hb, rfl⟩).tail (.step e) ⟨_, hb2, rfl⟩⟩

example : ∃ k k' r, MReach Config.default (fun _ => True) k ∧ k.pc 0 = .rlook r 0 50 ∧ mstep Config.default k 0 = .ok (k', none) ∧
    k'.pc 0 = .rlocal 0 r 0 50 ∧ (⟨0, r, 100, true⟩ : PBlock) ∈ k'.G.all ∧
    Lasts (MNext Config.default (fun _ => True)) r k k' :=
  msample_rlocal (by decide) (by omega) (by unfold PSize; omega)

/-- Hypotheses of `C76_interleaved_again_partial` and `C76_interleaved_inplace`. -/
example : ∃ k k' r, MReach Config.default (fun _ => True) k ∧ (⟨0, r, 100, true⟩ : PBlock) ∈ k.G.all ∧
    k.pc 0 = .rlocal 0 r 0 100 ∧ LeftAlone Config.default (chunkBytes k.w.mem r) 100 ∧
    mstep Config.default k 0 = .ok (k', some r) := by
  have hf : Config.default.reallocFactor ≠ 0 := by decide
  obtain ⟨k, k', r, h, _, e, hpc, hb, _⟩ := msample_rlocal hf (n := 100) (by omega) (by unfold PSize; omega)
  have h1 := h.step e
  have hs := C83_interleaved_partial hf h1 hb rfl
  obtain ⟨Ω, _, I⟩ := h1.inv (cl := False) hf False.elim
  have key : LeftAlone Config.default (chunkBytes k'.w.mem r) 100 :=
    again_of (s := k'.ps) (G := ⟨k'.G.all, []⟩) (l := ⟨0, r, 100, true⟩) I.inv hb rfl (Or.inr (by show 24 ≤ 100; omega))
      (Or.inl (by show 100 < 2097105; omega)) hs
  obtain ⟨k2, e2⟩ := C76_interleaved_inplace hf h1 hpc key
  exact ⟨k', k2, r, h1, hb, hpc, key, e2⟩

end MpcAlloc

namespace MpcAlloc.ConcEnds

open Queue (CPC PPC upd upd_same upd_ne)

/-! ## Lemmas for threads that end -/

section
variable {Ω : Env} {C : Config} {cl : Prop} {k K' : MS} {μ : Tags} {α : Type} {F : Mem → Nat → α}

theorem same_purge (hF : Seen F) (I : Inv Ω cl k μ) {t : Nat} {j : Job} {c : CPC} (hpc : k.pc t = .purge j c)
    (e : purgeStep C (k.tags μ) t j c = .ok K') : SizesKept F k K' := by
  by_cases hd : ∃ cur nxt, c = .dfree cur nxt
  · obtain ⟨cur, nxt, rfl⟩ := hd
    obtain ⟨q, R, hq⟩ := I.m.q t
    have hcons : q.cons = .dfree cur nxt := by rw [hq.cons, hpc]; rfl
    obtain ⟨f1, f2, f3⟩ := Queue.inFlight_dfree R hcons
    obtain ⟨l, hl, hlo, hlp⟩ := (hq.fl cur).1 f1
    have hptr : readLE (k.tags μ).w.mem (cur + 8) 8 = cur := by
      rw [← hlp]
      refine I.m.ptr l hl (fun u hu => ?_)
      have := f2 u
      rw [hq.prod, ← hlp, ← hlo] at this
      exact this hu
    simp only [MpcAlloc.purgeStep] at e
    rw [hptr, ← hlp, ← hlo] at e
    obtain ⟨c, hc⟩ := I.m.inv.chain_some (MSpec.queued_all hl)
    have hloc : (k.tags μ).ps.loc l.owner = .ok (CS.tag ⟨k.ps.w, c⟩ (μ l.owner)) := tags_loc (s := k.ps) hc
    rw [hloc, Outcome.ok_bind] at e
    obtain ⟨v, e2, e⟩ := Outcome.bind_eq_ok e
    obtain rfl := Outcome.ok.inj e
    obtain ⟨u, e3, hv⟩ := free_untag I (MSpec.queued_all hl) hc e2
    exact SizesKept.free hF I.m.inv (MSpec.queued_all hl) hc e3 rfl (by rw [← hv]; rfl)
  · rw [purge_tags (fun cur nxt e => hd ⟨cur, nxt, e⟩)] at e
    obtain ⟨k1, e1, e⟩ := Outcome.bind_eq_ok e
    obtain rfl := Outcome.ok.inj e
    have h1 : SizesKept F k k1 := SizesKept.purgeStep hF I.m hpc e1
    exact h1

theorem same_step (hF : Seen F) (hf : C.reallocFactor ≠ 0) (I : Inv Ω cl k μ) {t : Nat} {o : Option Nat}
    (e : step C (k.tags μ) t = .ok (K', o)) : SizesKept F k K' := by
  have e : mstep C (k.tags μ) t = .ok (K', o) := by
    unfold ConcEnds.step at e
    split at e
    · cases e
    · exact e
  have e0 := e
  unfold mstep at e
  have ok := I.m.th t
  have hp : (k.tags μ).pc t = k.pc t := rfl
  rw [hp] at e
  cases hpc : k.pc t with
  | idle =>
    rw [hpc] at e
    obtain ⟨rfl, _⟩ := Prod.mk.inj (Outcome.ok.inj e); exact .mem rfl
  | purge j c =>
    rw [hpc] at e
    simp only at e
    obtain ⟨k1, e1, e⟩ := Outcome.bind_eq_ok e
    obtain ⟨rfl, _⟩ := Prod.mk.inj (Outcome.ok.inj e)
    exact same_purge hF I hpc e1
  | alloc b n a =>
    have hrun : μ t = .run := I.runs (by rw [hpc]; rintro (h | ⟨_, h | ⟨_, h⟩⟩) <;> cases h)
    rw [hpc] at e ok
    simp only at e
    have ok : AllocOK cl k t b n a := ok
    have hb := ok.1
    have ht := I.m.lt (t := t) (by rw [hpc]; simp)
    obtain ⟨c, hc⟩ : ∃ c, k.ps.chs[t]? = some c := ⟨_, List.getElem?_eq_getElem (show t < k.ps.chs.length from ht)⟩
    have hloc : (k.tags μ).ps.loc t = .ok ⟨k.ps.w, c⟩ := by
      have := tags_loc (s := k.ps) (μ := μ) hc
      rw [hrun] at this
      exact this
    rw [hloc, Outcome.ok_bind] at e
    obtain ⟨⟨u, r⟩, e2, e⟩ := Outcome.bind_eq_ok e
    have h1 := fun m hm => (alloc_stayF hF I.m.inv hc hb.1 (show (if n = 0 then 1 else n) ≠ 0 by split <;> omega)
        ((reqSize_eq b n) ▸ hb.2.1) e2).all (l := m) hm trivial
    cases a with
    | ret => obtain ⟨rfl, _⟩ := Prod.mk.inj (Outcome.ok.inj e); exact .same h1
    | zero => obtain ⟨rfl, _⟩ := Prod.mk.inj (Outcome.ok.inj e); exact .same h1
    | move p => obtain ⟨rfl, _⟩ := Prod.mk.inj (Outcome.ok.inj e); exact .same h1
  | zero r n =>
    rw [hpc] at e ok
    simp only at e
    obtain ⟨c, b, x, y, hc, hop, rfl, hr, hl, _⟩ := ok
    unfold memZero at e
    rw [if_neg hr, Outcome.ok_bind] at e
    obtain ⟨rfl, _⟩ := Prod.mk.inj (Outcome.ok.inj e)
    exact SizesKept.store hF (m' := fun z => if r ≤ z ∧ z < r + x * y then 0 else k.w.mem z) I.m.inv (MSpec.hand_all hl)
      (fun z hz => by
        unfold PBlock.Byte at hz
        simp only at hz
        rw [if_neg hz]) rfl
  | copy r p n =>
    rw [hpc] at e ok
    simp only at e
    obtain ⟨c, b, l, hc, hop, hp, hn, hpr, ⟨hr, hl, _⟩, o1, o2, _⟩ := ok
    obtain ⟨g, eg, hg1, hg2⟩ := getSize_op I.m.inv (MSpec.hand_all o1)
    have hd := hg2 _ (MSpec.hand_all hl) (by simp only; rw [o2]; exact hpr.symm)
    simp only at hd hg1
    rw [o2] at hd eg
    obtain ⟨z, hz⟩ : ∃ z, z = if n < g then n else g := ⟨_, rfl⟩
    have hzn : z ≤ n ∧ z ≤ g := by rw [hz]; split <;> omega
    obtain ⟨m', em, _, c2⟩ := memCopy_ok (m := k.w.mem) (dst := r) (src := p) (n := z) (by omega)
    have eg : posixGetSize (k.tags μ).w.mem p = .ok g := eg
    have em : memCopy (k.tags μ).w.mem r p z = .ok m' := em
    rw [if_pos hr, eg, Outcome.ok_bind, ← hz, em, Outcome.ok_bind] at e
    obtain ⟨rfl, _⟩ := Prod.mk.inj (Outcome.ok.inj e)
    refine SizesKept.store hF (m' := m') I.m.inv (MSpec.hand_all hl) (fun x hx => ?_) rfl
    unfold PBlock.Byte at hx
    simp only at hx
    exact c2 x (by omega)
  | look p r =>
    rw [hpc] at e
    simp only at e
    by_cases hp : p = 0
    · rw [if_pos hp] at e
      obtain ⟨rfl, _⟩ := Prod.mk.inj (Outcome.ok.inj e); exact .mem rfl
    rw [if_neg hp] at e
    obtain ⟨u, _, e⟩ := Outcome.bind_eq_ok e
    obtain ⟨⟨k1, x⟩, e1, e⟩ := Outcome.bind_eq_ok e
    have hm : k1.w.mem = (k.tags μ).w.mem := look_mem e1
    simp only at e
    split at e
    · split at e
      · cases e
      · obtain ⟨rfl, _⟩ := Prod.mk.inj (Outcome.ok.inj e); exact .mem hm
    · obtain ⟨v, _, e⟩ := Outcome.bind_eq_ok e
      split at e <;> obtain ⟨rfl, _⟩ := Prod.mk.inj (Outcome.ok.inj e) <;> exact .mem hm
  | lfree i p r =>
    rw [hpc] at e ok
    simp only at e
    obtain ⟨hit, okr, hpr, l, hl, rfl, rfl⟩ := ok
    obtain ⟨c, hc⟩ := I.m.inv.chain_some (MSpec.hand_all hl)
    have hloc : (k.tags μ).ps.loc l.owner = .ok (CS.tag ⟨k.ps.w, c⟩ (μ l.owner)) := tags_loc (s := k.ps) hc
    rw [hloc, Outcome.ok_bind] at e
    obtain ⟨v, e2, e⟩ := Outcome.bind_eq_ok e
    obtain ⟨rfl, _⟩ := Prod.mk.inj (Outcome.ok.inj e)
    obtain ⟨u, e3, hv⟩ := free_untag I (MSpec.hand_all hl) hc e2
    exact SizesKept.ret (k1 := { (k.tags μ).setPs ((k.ps.tags μ).put l.owner v) with G := k.G.drop l.ptr })
      (SizesKept.free hF I.m.inv (MSpec.hand_all hl) hc e3 rfl (by rw [← hv]; rfl)) t r
  | push i c r =>
    rw [hpc] at e
    obtain ⟨k1, o1, e1, hG, hw⟩ := push_untag e
    intro l hl l' hl' hlp
    have := SizesKept.pushStep hF I.m hpc e1 l hl l' (by rw [hG]; exact hl') hlp
    rw [hw] at this
    exact this
  | rlook p b n =>
    rw [hpc] at e
    simp only at e
    obtain ⟨u, _, e⟩ := Outcome.bind_eq_ok e
    obtain ⟨⟨k1, x⟩, e1, e⟩ := Outcome.bind_eq_ok e
    have hm : k1.w.mem = (k.tags μ).w.mem := look_mem e1
    simp only at e
    split at e
    · cases e
    · obtain ⟨v, _, e⟩ := Outcome.bind_eq_ok e
      split at e <;> obtain ⟨rfl, _⟩ := Prod.mk.inj (Outcome.ok.inj e) <;> exact .mem hm
  | rlocal i p b n =>
    obtain ⟨k1, e1, hG, hw⟩ := rlocal_untag hf I hpc e0
    intro l hl l' hl' hlp
    have := SizesKept.step hF hf I.m e1 l hl l' (by rw [hG]; exact hl') hlp
    rw [hw] at this
    exact this

end

/-- One event, when threads end. -/
theorem kept_event {α : Type} {F : Mem → Nat → α} (hF : Seen F) {C : Config} {X : MCall → Prop} {k k' : MS}
    (hf : C.reallocFactor ≠ 0) (h : Reach C X k) (e : Event C X k k') : SizesKept F k k' := by
  obtain ⟨Ω, N, μ, _, rfl, I⟩ := h.inv (cl := False) hf False.elim
  show SizesKept F N k'
  cases e with
  | call _ _ _ _ _ _ => exact .mem (by rw [start_src]; rfl)
  | step e => exact same_step hF hf I e
  | @write l a v hl ha =>
    exact SizesKept.store hF (m' := fun x => if x = a then v else N.w.mem x) I.m.inv (MSpec.live_all hl)
      (fun x hx => if_neg (fun h : x = a => hx (by rw [h]; exact ha))) rfl
  | @spawn s a z pb hv e =>
    unfold posixSpawn at e
    obtain ⟨u, e1, e⟩ := Outcome.bind_eq_ok e
    obtain rfl := Outcome.ok.inj e
    have e2 : ∃ s0, posixSpawn N.ps a z pb = .ok s0 ∧ s0.w = u.w := by
      unfold posixSpawn
      have e1 : userInit (N.ps.reserve a z).w a pb 0 0 false false false = .ok u := e1
      simp only
      rw [e1, Outcome.ok_bind]
      exact ⟨_, rfl, rfl⟩
    obtain ⟨s0, e2, hw0⟩ := e2
    refine .same fun l hl => ?_
    have := (spawn_stayF hF I.m.inv (s' := s0) (a := a) (z := z) (pb := pb) hv e2).all hl trivial
    rw [hw0] at this
    exact this
  | flag _ _ _ => exact .mem rfl
  | handler _ _ _ => exact .mem (by unfold setHandler; rw [start_src]; rfl)

/-! ## Properties when threads end -/

/-- C76 when threads end while the others run: no event changes the chunk of a block that is there before and after it, also
when the thread of the block has ended. Missing: see `C76_interleaved_event_partial`. -/
theorem C76_ends_event_partial {C : Config} {X : MCall → Prop} {k k' : MS} {p : Nat} (hf : C.reallocFactor ≠ 0)
    (h : Reach C X k) (e : Event C X k k') (hp : IsBlock k p) (hp' : IsBlock k' p) :
    chunkBytes k'.w.mem p = chunkBytes k.w.mem p := by
  obtain ⟨l, hl, rfl⟩ := hp
  obtain ⟨l', hl', hlp⟩ := hp'
  exact kept_event chunkBytes_seen hf h e l hl l' hl' hlp

/-- C76 when threads end while the others run: as long as there is a block at the address `p`, its chunk is the same. Missing:
see `C76_interleaved_event_partial`. -/
theorem C76_ends_partial {C : Config} {X : MCall → Prop} {k k' : MS} {p : Nat} (hf : C.reallocFactor ≠ 0)
    (h : Reach C X k) (e : Lasts (Event C X) p k k') : chunkBytes k'.w.mem p = chunkBytes k.w.mem p := by
  refine (Lasts.chunk (Y := Reach C X) (fun h e => ⟨h.event e, ?_⟩) h e).2
  exact fun l hl l' hl' hp => C76_ends_event_partial hf h e ⟨l, hl, rfl⟩ ⟨l', hl', hp⟩

/-- C76 when threads end, the rule: a thread that resizes a block in the chain of which the block is, its own or that of a thread
that has begun to end, gets the same address exactly if the rule holds for the size of the chunk, and then changes neither the
memory, nor the regions, nor the source. Missing: see `C76_interleaved_event_partial`. -/
theorem C76_ends_rule_partial {C : Config} {X : MCall → Prop} {k k' : MS} {t i p b n r : Nat} (hf : C.reallocFactor ≠ 0)
    (h : Reach C X k) (hpc : k.pc t = .rlocal i p b n) (e : step C k t = .ok (k', some r)) :
    (r = p ↔ LeftAlone C (chunkBytes k.w.mem p) n) ∧ (r = p → k'.w = k.w) := by
  obtain ⟨Ω, N, μ, _, rfl, I⟩ := h.inv (cl := False) hf False.elim
  have e : mstep C (N.tags μ) t = .ok (k', some r) := by
    unfold ConcEnds.step at e
    split at e
    · cases e
    · exact e
  have hpc : N.pc t = .rlocal i p b n := hpc
  obtain ⟨k1, e1, _, hw⟩ := rlocal_untag hf I hpc e
  obtain ⟨h1, h2⟩ := rule_step hf I.m hpc e1
  exact ⟨h1, fun h => by rw [← hw, (h2 h).1]; rfl⟩

/-- C76 when threads end, with the default parameters: see `C76_interleaved_again_partial`; also when the thread that obtained
the block has ended and another one resizes it. Missing: the smaller sizes (see `C76_same_size_refuted`). -/
theorem C76_ends_again_partial {X : MCall → Prop} {k k' : MS} {t i b r : Nat} {l : PBlock} (h : Reach Config.default X k)
    (hl : l ∈ k.G.all) (hp : l.plain = true) (h1 : l.len = 16 ∨ 24 ≤ l.len) (h2 : l.len < 2097105 ∨ 2097119 < l.len)
    (hpc : k.pc t = .rlocal i l.ptr b l.len) (e : step Config.default k t = .ok (k', some r)) : r = l.ptr ∧ k'.w = k.w := by
  have hf : Config.default.reallocFactor ≠ 0 := by decide
  obtain ⟨h3, h4⟩ := C76_ends_rule_partial hf h hpc e
  have hs := C83_ends_partial hf h hl hp
  obtain ⟨Ω, N, μ, _, rfl, I⟩ := h.inv (cl := False) hf False.elim
  have hl : l ∈ N.G.all := hl
  have key : LeftAlone Config.default (chunkBytes N.w.mem l.ptr) l.len :=
    again_of (s := N.ps) (G := ⟨N.G.all, []⟩) I.m.inv hl hp h1 h2 hs
  exact ⟨h3.2 key, h4 (h3.2 key)⟩

/-- Hypotheses of the theorems: the thread of a block begins to end. -/
example : ∃ k k' r, Reach Config.default MClean k ∧ Lasts (Event Config.default MClean) r k k' ∧ safe k 0 = false ∧
    safe k' 0 = true := by
  obtain ⟨k, r, z, hr, h, hp, hr0, hG, hz, hs⟩ := start_small (X := MClean) small_clean
  obtain ⟨v1, h1⟩ := h.flag (C := Config.default) (X := MClean) (hp 0)
  have hb : IsBlock k r := ⟨⟨0, r, 100, true⟩, by rw [hG]; simp [MSpec.all], rfl⟩
  have hb1 : IsBlock (setSafe k 0) r := hb
  exact ⟨k, setSafe k 0, r, hr, (Lasts.refl hb).tail v1 hb1, h.safe0, h1.safe0⟩

end MpcAlloc.ConcEnds
