import Verif.ConcStep

/-
The steps of the threads that do not concern the queues keep the invariant.
-/

namespace MpcAlloc

open Queue (CPC PPC upd upd_same upd_ne InFlight)

theorem projP_idle {i j r : Nat} : projP i (.push j .idle r) = .idle := by
  simp only [projP]; split <;> rfl

theorem Same.go {k : MS} {t : Nat} {c : MPc} : Same k (k.go t c) t := ⟨rfl, fun _ h => h, fun _ _ _ _ => rfl⟩

theorem MSpec.add_hand {G : MSpec} {t o r n : Nat} {pl : Bool} (h : r ≠ 0) {x : Nat × PBlock} :
    x ∈ (G.add t o r n pl).hand ↔ x = (t, ⟨o, r, n, pl⟩) ∨ x ∈ G.hand := by
  unfold MSpec.add; rw [if_neg h]; simp

theorem MSpec.add_queued {G : MSpec} {t o r n : Nat} {pl : Bool} : (G.add t o r n pl).queued = G.queued := by
  unfold MSpec.add; split <;> rfl

theorem MSpec.add_live {G : MSpec} {t o r n : Nat} {pl : Bool} : (G.add t o r n pl).live = G.live := by
  unfold MSpec.add; split <;> rfl

/-- Allocation. -/
theorem MInv.alloc {Ω : Env} {cl : Prop} {E : EndSet} {C : Config} {k : MS} (I : MInv Ω cl E k) {t b n : Nat} {a : After}
    (hpc : k.pc t = .alloc b n a) :
    (¬ HasMem k.ps (reqSize b n) ∧ mstep C k t = .ub) ∨
    ∃ k' o, mstep C k t = .ok (k', o) ∧ MInv Ω cl E k' ∧ MOut (By E t) k k' t o := by
  have ht := I.lt (t := t) (by rw [hpc]; simp)
  have ok : AllocOK cl k t b n a := by have := I.th t; rw [hpc] at this; exact this
  obtain ⟨⟨hb, hsz, hcl⟩, c0, hc0, hop⟩ := ok
  obtain ⟨c, hc⟩ : ∃ c, k.ps.chs[t]? = some c := ⟨_, List.getElem?_eq_getElem (show t < k.ps.chs.length from ht)⟩
  have hstep : mstep C k t = (do
      let (u, r) ← allocAlign (lightSource C) ⟨k.ps.w, c⟩ b (if n = 0 then 1 else n)
      let k := { k.setPs (k.ps.put t u) with G := k.G.add t t r n (decide (b ≤ 1)) }
      match a with
      | .ret => return k.ret t r
      | .zero => return (k.go t (.zero r n), none)
      | .move p => return (k.go t (.copy r p n), none)) := by
    unfold mstep
    rw [hpc]
    simp only
    rw [PS.loc_eq hc, Outcome.ok_bind]
    cases a <;> rfl
  rw [hstep]
  rcases alloc_eff (C := C) I.inv hc hb (n := if n = 0 then 1 else n) (by split <;> omega) (reqSize_eq b n).symm hsz hcl with
    ⟨h1, h2⟩ | ⟨u, r, e, hr, _, h1, h2, K, h3⟩
  · left
    refine ⟨h1, ?_⟩
    rw [h2]
    rfl
  right
  rw [e, Outcome.ok_bind]
  have J := h3 n (by split <;> omega)
  obtain ⟨k1, hk1⟩ : ∃ k1 : MS, k1 = { k.setPs (k.ps.put t u) with G := k.G.add t t r n (decide (b ≤ 1)) } := ⟨_, rfl⟩
  have hpc1 : k1.pc = k.pc := by rw [hk1]; rfl
  have hw1 : k1.w = u.w := by rw [hk1]; rfl
  have hG1 : k1.G = k.G.add t t r n (decide (b ≤ 1)) := by rw [hk1]
  have hcall1 : k1.call = k.call := by rw [hk1]; rfl
  have hlen1 : k1.chs.length = k.chs.length := by rw [hk1]; simp [MS.setPs, PS.put, MS.ps]
  have inv1 : PInv Ω cl k1.ps ⟨k1.G.all, []⟩ := by
    have hps : k1.ps = k.ps.put t u := by rw [hk1]; rfl
    rw [hps, hG1]
    refine PInv.perm ?_ (k.G.add_all t t n (decide (b ≤ 1)) hr).symm
    unfold PSpec.add at J
    rw [if_neg hr] at J
    exact J
  have hN : ∀ l ∈ k.G.all, r ≠ l.ptr := by
    have := (J.disj).1
    unfold PSpec.add at this
    rw [if_neg hr] at this
    simp only [List.append_nil] at this
    intro l hl
    exact ((List.pairwise_cons.1 this).1 l hl).1
  have S1 : Same k k1 t := ⟨by rw [hcall1], fun l hl => by rw [hG1]; exact (MSpec.add_hand hr).2 (Or.inr hl),
    fun l hl x hx => by rw [hw1]; exact K l (MSpec.hand_all hl) trivial x hx⟩
  have hnew : New k1 t r b n := ⟨hr, by rw [hG1]; exact (MSpec.add_hand hr).2 (Or.inl rfl), h1, h2⟩
  have step : ∀ c' : MPc, (∀ i, projP i c' = .idle) → projC c' = .idle → MPcOK cl E k1 t c' → r ∈ c'.refs →
      (∀ p ∈ (k.pc t).refs, p ∈ c'.refs) → MInv Ω cl E (k1.go t c') := by
    intro c' p1 p2 p3 p4 p5
    refine I.local (t := t) (c := c') (by simp only [MS.go]; rw [hpc1]) (fun v _ => congrFun hcall1 v)
      (by simp only [MS.go]; omega) (Or.inl (by simp only [MS.go]; omega)) inv1 (by rw [hk1]; rfl) (by rw [hk1]; rfl)
      (fun i => by rw [p1, hpc]; rfl) (by rw [p2, hpc]; rfl) ?_ ?_ ?_ (p3.congr Same.go) ?_
    · intro l
      show l ∈ k1.G.queued ↔ _
      rw [hG1, MSpec.add_queued]
    · intro v l hv
      show (v, l) ∈ k1.G.hand ↔ _
      rw [hG1, MSpec.add_hand hr]
      exact ⟨fun h => h.resolve_left (fun e => hv (Prod.mk.inj e).1), Or.inr⟩
    · refine Keeps.frame (Z := fun _ => True) (fun l hl z x hx => ?_) (fun _ _ => trivial)
      exact (congrFun (congrArg World.mem hw1) x).trans (K l hl z x hx)
    · intro l hl
      have hl' : (t, l) ∈ k1.G.hand := hl
      rw [hG1, MSpec.add_hand hr] at hl'
      rcases hl' with h | h
      · rw [(Prod.mk.inj h).2]; exact p4
      · exact p5 _ (I.hand (t, l) h)
  have hlive : ∀ l, l ∈ k1.G.live ↔ l ∈ k.G.live := fun l => by rw [hG1, MSpec.add_live]
  have hqueue : ∀ l, l ∈ k1.G.queued ↔ l ∈ k.G.queued := fun l => by rw [hG1, MSpec.add_queued]
  have kept : ∀ l ∈ k.G.live, ∀ x, l.Byte x → k1.w.mem x = k.w.mem x := fun l hl x hx => by
    rw [hw1]; exact K l (MSpec.live_all hl) trivial x hx
  cases a with
  | ret =>
    obtain ⟨i1, i2⟩ := MInv.finish (k := k) (step (.push 0 .idle r) (fun i => projP_idle) rfl
      (by
        refine ⟨c0, by rw [hcall1]; exact hc0, ?_⟩
        rcases hop with h | h <;> rw [h]
        · exact hnew
        · exact Or.inl ⟨rfl, hnew⟩) (List.mem_singleton.2 rfl) (by rw [hpc]; simp [MPc.refs]))
      (by omega) hlive (by rw [hcall1]) kept hqueue
    refine ⟨_, _, ?_, i1, i2⟩
    rw [hk1]
    rfl
  | zero =>
    obtain ⟨x, y, hop, hxy⟩ := hop
    refine ⟨k1.go t (.zero r n), none, by rw [hk1]; rfl, step _ (fun _ => rfl) rfl
      ⟨c0, b, x, y, by rw [hcall1]; exact hc0, hop, hxy, hnew⟩ (List.mem_singleton.2 rfl) (by rw [hpc]; simp [MPc.refs]),
      .quiet kept hlive hqueue⟩
  | move p =>
    obtain ⟨hop, hp, hn, l, ho⟩ := hop
    refine ⟨k1.go t (.copy r p n), none, by rw [hk1]; rfl, step _ (fun _ => rfl) rfl
      ⟨c0, b, l, by rw [hcall1]; exact hc0, hop, hp, hn, ?_, hnew, ho.congr S1⟩ (by simp [MPc.refs]) (by rw [hpc]; simp [MPc.refs]),
      .quiet kept hlive hqueue⟩
    rw [← ho.2.1]
    exact (hN l (MSpec.hand_all ho.1)).symm

/-- A store of thread `t` into a block in its hands, then `c'`. -/
theorem MInv.store {Ω : Env} {cl : Prop} {E : EndSet} {k : MS} (I : MInv Ω cl E k) {t : Nat} {l : PBlock} {m' : Mem} {c' : MPc}
    (ht : t < k.chs.length) (hl : (t, l) ∈ k.G.hand) (hm : ∀ x, ¬ l.Byte x → m' x = k.w.mem x)
    (p0 : ∀ i, projP i (k.pc t) = .idle) (p0' : projC (k.pc t) = .idle) (p1 : ∀ i, projP i c' = .idle) (p2 : projC c' = .idle)
    (p3 : MPcOK cl E (k.setMem m') t c') (p5 : ∀ p ∈ (k.pc t).refs, p ∈ c'.refs) :
    MInv Ω cl E ((k.setMem m').go t c') ∧ ∀ v ∈ k.G.all, v.ptr ≠ l.ptr → ∀ x, v.Byte x → m' x = k.w.mem x := by
  obtain ⟨J, K⟩ := store_eff (m' := m') I.inv (MSpec.hand_all hl) hm
  refine ⟨I.local (t := t) (c := c') rfl (fun v _ => rfl) (Nat.le_refl _) (Or.inl ht) J rfl rfl
    (fun i => by rw [p1, p0]) (by rw [p2, p0']) (fun _ => Iff.rfl) (fun _ _ _ => Iff.rfl) ?_ (p3.congr Same.go)
    (fun m h => p5 _ (I.hand (t, m) h)), K⟩
  exact Keeps.frame (Z := fun m => m.ptr ≠ l.ptr) K ((PInv.nd I.inv).frame hl)

/-- The end of calloc. -/
theorem MInv.zero {Ω : Env} {cl : Prop} {E : EndSet} {C : Config} {k : MS} (I : MInv Ω cl E k) {t r n : Nat} (hpc : k.pc t = .zero r n) :
    ∃ k' o, mstep C k t = .ok (k', o) ∧ MInv Ω cl E k' ∧ MOut (By E t) k k' t o := by
  have ht := I.lt (t := t) (by rw [hpc]; simp)
  have ok := I.th t
  rw [hpc] at ok
  obtain ⟨c, b, x, y, hc, hop, rfl, hnew⟩ := ok
  obtain ⟨hr, hl, h1, h2⟩ := id hnew
  have N := PInv.nd I.inv
  obtain ⟨m', hm'⟩ : ∃ m' : Mem, m' = fun z => if r ≤ z ∧ z < r + x * y then 0 else k.w.mem z := ⟨_, rfl⟩
  obtain ⟨J, K⟩ := I.store (m' := m') (c' := .push 0 .idle r) ht hl (fun z hz => by
    unfold PBlock.Byte at hz
    simp only at hz
    rw [hm']; simp only; rw [if_neg hz]) (fun i => by rw [hpc]; rfl) (by rw [hpc]; rfl)
    (fun i => projP_idle) rfl
    (by
      refine ⟨c, hc, ?_⟩
      rw [hop]
      refine ⟨hnew, fun i hi => ?_⟩
      show m' (r + i) = 0
      rw [hm']; simp only; rw [if_pos (by omega)]) (by rw [hpc]; exact fun _ h => h)
  obtain ⟨i1, i2⟩ := J.finish (k := k) ht (fun _ => Iff.rfl) rfl (fun l hl' => K l (MSpec.live_all hl') (N.lh l hl' _ hl))
    (fun _ => Iff.rfl)
  refine ⟨_, _, ?_, i1, i2⟩
  unfold mstep
  rw [hpc]
  simp only
  unfold memZero
  rw [if_neg hr, Outcome.ok_bind, hm']
  rfl

/-- The copy of realloc. -/
theorem MInv.copy {Ω : Env} {cl : Prop} {E : EndSet} {C : Config} {k : MS} (I : MInv Ω cl E k) {t r p n : Nat} (hpc : k.pc t = .copy r p n) :
    ∃ k' o, mstep C k t = .ok (k', o) ∧ MInv Ω cl E k' ∧ MOut (By E t) k k' t o := by
  have ht := I.lt (t := t) (by rw [hpc]; simp)
  have ok := I.th t
  rw [hpc] at ok
  obtain ⟨c, b, l, hc, hop, hp, hn, hpr, hnew, ho⟩ := ok
  obtain ⟨hr, hl, h1, h2⟩ := id hnew
  obtain ⟨o1, o2, o3, o4⟩ := id ho
  have N := PInv.nd I.inv
  obtain ⟨g, eg, hg1, hg2⟩ := getSize_op I.inv (MSpec.hand_all o1)
  have hd := hg2 _ (MSpec.hand_all hl) (by simp only; rw [o2]; exact hpr.symm)
  simp only at hd hg1
  rw [o2] at hd eg
  obtain ⟨z, hz⟩ : ∃ z, z = if n < g then n else g := ⟨_, rfl⟩
  have hzn : z ≤ n ∧ z ≤ g ∧ min l.len n ≤ z := by rw [hz]; split <;> omega
  obtain ⟨m', em, c1, c2⟩ := memCopy_ok (m := k.w.mem) (dst := r) (src := p) (n := z) (by omega)
  obtain ⟨J, K⟩ := I.store (m' := m') (c' := .purge (.free p r) .idle) ht hl (fun x hx => by
    unfold PBlock.Byte at hx
    simp only at hx
    exact c2 x (by omega)) (fun i => by rw [hpc]; rfl) (by rw [hpc]; rfl) (fun i => rfl) rfl
    (by
      refine ⟨⟨c, hc, ?_⟩, Or.inr ⟨hpr, l, o1, o2⟩⟩
      rw [hop]
      refine Or.inr (Or.inr ⟨hp, hn, hr, _, hl, rfl, rfl, Or.inl rfl, fun _ => ⟨h1, h2⟩, fun l0 hl0 e i hi => ?_⟩)
      rw [o3 l0 hl0 e] at hi
      show m' (r + i) = _
      rw [c1 i (by omega)]
      exact o4 _ ⟨by omega, by omega⟩) (by rw [hpc]; simp [MPc.refs])
  refine ⟨_, none, ?_, J, .quiet (fun m hm => K m (MSpec.live_all hm) (N.lh m hm _ hl)) (fun _ => Iff.rfl) (fun _ => Iff.rfl)⟩
  unfold mstep
  rw [hpc]
  simp only
  rw [if_pos hr]
  have eg : posixGetSize k.w.mem p = .ok g := eg
  rw [eg, Outcome.ok_bind, ← hz, em, Outcome.ok_bind]
  rfl

/-- The result of a call depends only on its record and on the block at `r`. -/
theorem RetOK.at {E : EndSet} {k k' : MS} {t r : Nat} (h : RetOK E k t r) (hc : k'.call t = k.call t)
    (hh : ∀ l, (t, l) ∈ k.G.hand → l.ptr = r → (t, l) ∈ k'.G.hand)
    (hm : ∀ l, (t, l) ∈ k.G.hand → l.ptr = r → ∀ x, l.Byte x → k'.w.mem x = k.w.mem x) : RetOK E k' t r := by
  obtain ⟨c, h1, h2⟩ := h
  refine ⟨c, by rw [hc]; exact h1, ?_⟩
  have new : ∀ b n, New k t r b n → New k' t r b n := fun b n h => ⟨h.1, hh _ h.2.1 rfl, h.2.2⟩
  split at h2
  · exact new _ _ h2
  · refine ⟨new _ _ h2.1, fun i hi => ?_⟩
    rw [hm _ h2.1.2.1 rfl (r + i) ⟨by simp only; omega, by simp only; omega⟩]
    exact h2.2 i hi
  · exact h2
  · rcases h2 with ⟨h3, h4⟩ | h3 | ⟨h3, h4, h5, l, l1, l2, l3, l4, l5, l6⟩
    · exact Or.inl ⟨h3, new _ _ h4⟩
    · exact Or.inr (Or.inl h3)
    · refine Or.inr (Or.inr ⟨h3, h4, h5, l, hh l l1 l2, l2, l3, l4, l5, fun l0 hl0 e i hi => ?_⟩)
      rw [hm l l1 l2 (r + i) ⟨by omega, by omega⟩]
      exact l6 l0 hl0 e i hi

/-- The search of the chain of a block. -/
theorem MInv.look {Ω : Env} {cl : Prop} {E : EndSet} {k : MS} (I : MInv Ω cl E k) {t : Nat} {l : PBlock} (hl : (t, l) ∈ k.G.hand) :
    ∃ R c, k.look l.ptr = .ok ({ k with w := { k.w with regs := R } }, some (c.addr, l.owner)) ∧
      k.chs[l.owner]? = some c ∧ c.threadSafe = false ∧ PInv Ω cl (k.ps.setRegs R) ⟨k.G.all, []⟩ ∧
      ∀ cu, k.chs[t]? = some cu → (c.addr = cu.addr ↔ l.owner = t) := by
  obtain ⟨R, b, c, e2, hb, e3, hcz, hc2, e4, hts, I2, hpz⟩ := lookup_eff I.inv (MSpec.hand_all hl)
  refine ⟨R, c, ?_, hc2, hts, I2, fun cu hcu => ⟨fun h => ?_, fun h => ?_⟩⟩
  · unfold MS.look
    have e2 : regionGetMacroBloc k.w.mem k.w.regs l.ptr = .ok (R, b) := e2
    rw [e2, Outcome.ok_bind]
    simp only
    rw [if_neg hb]
    have e3 : readLE k.w.mem (b + 16) 8 = c.addr := e3
    rw [e3, if_neg hcz]
    have e4 : (MS.ps { k with w := { k.w with regs := R } }).chainAt c.addr = .ok l.owner := e4
    rw [e4]
    rfl
  · obtain ⟨H, L, P, B, K⟩ := I.inv
    exact B.addrs _ _ _ _ hc2 hcu h
  · rw [h] at hc2
    rw [Option.some.inj (hc2.symm.trans hcu)]

theorem toQueue_hand {G : MSpec} {p : Nat} {x : Nat × PBlock} : x ∈ (G.toQueue p).hand ↔ x ∈ G.hand ∧ x.2.ptr ≠ p := drop_hand

theorem toQueue_live {G : MSpec} {p : Nat} {l : PBlock} : l ∈ (G.toQueue p).live ↔ l ∈ G.live ∧ l.ptr ≠ p := drop_live

theorem Nd.toQueue {G : MSpec} (N : Nd G) {t : Nat} {l : PBlock} (h : (t, l) ∈ G.hand) (m : PBlock) :
    m ∈ (G.toQueue l.ptr).queued ↔ m = l.wide ∨ m ∈ G.queued := by
  show m ∈ (G.find l.ptr).map PBlock.wide ++ (G.drop l.ptr).queued ↔ _
  rw [List.mem_append, drop_queued, List.mem_map]
  constructor
  · rintro (⟨a, ha, rfl⟩ | h')
    · rw [N.find (MSpec.hand_all h)] at ha
      exact Or.inl (by rw [ha])
    · exact Or.inr h'.1
  · rintro (rfl | h')
    · exact Or.inl ⟨l, (N.find (MSpec.hand_all h) l).2 rfl, rfl⟩
    · exact Or.inr ⟨h', (N.hq _ h m h').symm⟩

/-- A step that ends the call, without effect on the blocks. -/
theorem MInv.done {Ω : Env} {cl : Prop} {E : EndSet} {k k1 : MS} (I : MInv Ω cl E k) {t r : Nat} (ht : t < k.chs.length)
    (hw : k1.w.mem = k.w.mem) (hchs : k1.chs = k.chs) (hG : k1.G = k.G) (hcall : k1.call = k.call) (hp : k1.pc = k.pc)
    (hhead : k1.head = k.head) (htail : k1.tail = k.tail)
    (inv : PInv Ω cl k1.ps ⟨k.G.all, []⟩) (p0 : ∀ i, projP i (k.pc t) = .idle) (p0' : projC (k.pc t) = .idle)
    (ok : RetOK E k t r) (hd : ∀ l, (t, l) ∈ k.G.hand → l.ptr = r) :
    MInv Ω cl E (k1.ret t r).1 ∧ MOut (By E t) k (k1.ret t r).1 t (k1.ret t r).2 := by
  refine MInv.finish (k := k) ?_ (by rw [hchs]; exact ht) (fun _ => by rw [hG]) (by rw [hcall]) (fun l _ x _ => by rw [hw])
    (fun _ => by rw [hG])
  refine I.local (t := t) (c := .push 0 .idle r) (by simp only [MS.go]; rw [hp]) (fun u _ => congrFun hcall u)
    (by simp only [MS.go]; rw [hchs]) (Or.inl (by simp only [MS.go]; rw [hchs]; exact ht))
    (by simp only [MS.go]; rw [hG]; exact inv) hhead htail (fun i => by rw [p0, projP_idle]) (by rw [p0']; rfl)
    (fun l => by simp only [MS.go]; rw [hG]) (fun u l _ => by simp only [MS.go]; rw [hG])
    (fun l _ x _ => by simp only [MS.go]; rw [hw])
    (ok.at (congrFun hcall t) (fun l hl _ => by simp only [MS.go]; rw [hG]; exact hl) (fun l _ _ x _ => by simp only [MS.go]; rw [hw])) ?_
  intro l hl
  simp only [MS.go] at hl
  rw [hG] at hl
  exact List.mem_singleton.2 (hd l hl)

/-- The search in free finds the owner. -/
theorem MInv.look_eq {Ω : Env} {cl : Prop} {E : EndSet} {C : Config} {k : MS} (I : MInv Ω cl E k) {t r : Nat} {l : PBlock}
    (hpc : k.pc t = .look l.ptr r) (hl : (t, l) ∈ k.G.hand) :
    ∃ R, PInv Ω cl { k.ps with w := { k.w with regs := R } } ⟨k.G.all, []⟩ ∧ mstep C k t = if l.owner = t then
      .ok (MS.go { k with w := { k.w with regs := R } } t (.lfree l.owner l.ptr r), none)
    else .ok (MS.go { k with w := { k.w with regs := R }, G := k.G.toQueue l.ptr } t (.push l.owner (.clear l.ptr) r), none) := by
  have ht := I.lt (t := t) (by rw [hpc]; simp)
  have hp := I.ptr_ne (MSpec.hand_all hl)
  obtain ⟨R, c, e1, hc, hts, J, haddr⟩ := I.look hl
  obtain ⟨cu, hcu⟩ : ∃ c, k.chs[t]? = some c := ⟨_, List.getElem?_eq_getElem ht⟩
  have hloc := PS.loc_eq (s := k.ps) hcu
  have hloc2 := PS.loc_eq (s := MS.ps { k with w := { k.w with regs := R } }) hc
  refine ⟨R, J, ?_⟩
  have hstep : mstep C k t = if c.addr = cu.addr then
      .ok (MS.go { k with w := { k.w with regs := R } } t (.lfree l.owner l.ptr r), none)
    else .ok (MS.go { k with w := { k.w with regs := R }, G := k.G.toQueue l.ptr } t (.push l.owner (.clear l.ptr) r), none) := by
    unfold mstep
    rw [hpc]
    simp only
    rw [if_neg hp, hloc, Outcome.ok_bind, e1, Outcome.ok_bind]
    simp only
    rw [hloc2, Outcome.ok_bind]
    simp only [hts, Bool.false_eq_true, false_or]
    rfl
  rw [hstep]
  by_cases ho : l.owner = t
  · rw [if_pos ((haddr cu hcu).2 ho), if_pos ho]
  · rw [if_neg (fun h => ho ((haddr cu hcu).1 h)), if_neg ho]

/-- The search in free. -/
theorem MInv.lookStep {Ω : Env} {cl : Prop} {E : EndSet} {C : Config} {k : MS} (I : MInv Ω cl E k) {t p r : Nat} (hpc : k.pc t = .look p r) :
    ∃ k' o, mstep C k t = .ok (k', o) ∧ MInv Ω cl E k' ∧ MOut (By E t) k k' t o := by
  have ht := I.lt (t := t) (by rw [hpc]; simp)
  have ok : FreeOK E k t p r := by have := I.th t; rw [hpc] at this; exact this
  obtain ⟨okr, okp⟩ := ok
  have N := PInv.nd I.inv
  have hrefs : ∀ l, (t, l) ∈ k.G.hand → l.ptr = p ∨ l.ptr = r := by
    intro l hl
    have := I.hand (t, l) hl
    rw [hpc] at this
    simpa [MPc.refs] using this
  by_cases hp : p = 0
  · obtain ⟨i1, i2⟩ := I.done (k1 := k) (r := r) ht rfl rfl rfl rfl rfl rfl rfl I.inv (fun i => by rw [hpc]; rfl) (by rw [hpc]; rfl) okr
      (fun l hl => (hrefs l hl).resolve_left (fun e => I.ptr_ne (MSpec.hand_all hl) (by simp only; omega)))
    refine ⟨_, _, ?_, i1, i2⟩
    unfold mstep
    rw [hpc]
    simp only
    rw [if_pos hp]
  obtain ⟨hpr, l, hl, rfl⟩ := okp.resolve_left hp
  obtain ⟨R, J, hstep⟩ := I.look_eq (C := C) hpc hl
  rw [hstep]
  by_cases ho : l.owner = t
  · rw [if_pos ho]
    refine ⟨_, none, rfl, ?_, .quiet (fun _ _ _ _ => rfl) (fun _ => Iff.rfl) (fun _ => Iff.rfl)⟩
    refine I.local (t := t) (c := .lfree l.owner l.ptr r) rfl (fun _ _ => rfl) (Nat.le_refl _) (Or.inl ht) J rfl rfl
      (fun i => by rw [hpc]; rfl) (by rw [hpc]; rfl) (fun _ => Iff.rfl) (fun _ _ _ => Iff.rfl) (fun _ _ _ _ => rfl) ?_ ?_
    · exact ⟨Or.inl ho, okr.congr ⟨rfl, fun _ h => h, fun _ _ _ _ => rfl⟩, hpr, l, hl, rfl, rfl⟩
    · intro m hm
      have := I.hand (t, m) hm
      rw [hpc] at this
      exact this
  · rw [if_neg ho]
    refine ⟨_, none, rfl, ?_, fun _ _ _ _ => rfl, fun _ m => ?_, fun r h => absurd h (by simp), ?_, ?_⟩
    · refine I.next (t := t) (c := .push l.owner (.clear l.ptr) r) l.owner rfl (fun _ _ => rfl) (Nat.le_refl _) (Or.inl ht) ?_
        (fun _ _ => rfl) (fun _ _ => rfl) ?_ (fun _ => by rw [hpc]; rfl) ?_ ?_ (fun _ _ _ _ _ _ => rfl) (fun _ _ _ _ _ => rfl)
        ?_ ?_ ?_ ?_ ?_
      · refine PInv.perm (PInv.relen J ?_) (k.G.toQueue_all l.ptr).symm
        intro m _
        split
        · exact ⟨rfl, rfl, rfl, Nat.le_refl _⟩
        · exact ⟨rfl, rfl, rfl, Nat.le_max_left _ _⟩
      · intro i hi
        rw [hpc]
        simp only [projP]
        rw [if_neg (fun e => hi e.symm)]
      · intro m hm
        rw [show (MS.go { k with w := { k.w with regs := R }, G := k.G.toQueue l.ptr } t (.push l.owner (.clear l.ptr) r)).G =
          k.G.toQueue l.ptr from rfl, N.toQueue hl]
        exact ⟨fun h => h.resolve_left (fun e => hm (by rw [e]; rfl)), Or.inr⟩
      · intro u m hu
        show (u, m) ∈ (k.G.toQueue l.ptr).hand ↔ _
        rw [toQueue_hand]
        exact ⟨fun h => h.1, fun h => ⟨h, fun e => hu (Prod.mk.inj (N.hand _ h _ hl e)).1⟩⟩
      · refine okr.at rfl (fun m hm e => toQueue_hand.2 ⟨hm, ?_⟩) (fun _ _ _ _ _ => rfl)
        simp only
        rw [e]
        exact hpr.symm
      · intro m hm
        have hm := toQueue_hand.1 hm
        exact List.mem_singleton.2 ((hrefs m hm.1).resolve_left hm.2)
      · obtain ⟨q, Q, h⟩ := I.q l.owner
        have hidle : q.prod t = .idle := by rw [h.prod]; simp only; rw [hpc]; rfl
        have hnf : ¬ InFlight q l.ptr := by
          rw [h.fl]
          rintro ⟨m, h1, _, h3⟩
          exact N.hq _ hl m h1 h3.symm
        have hfl := fun f => Queue.inFlight_start (e := l.ptr) hidle f
        refine QRel.put (Q.start hidle hp hnf) h.head h.tail ?_ ?_ ?_ ?_
        · show upd q.prod t _ = _
          rw [h.prod]
          show _ = fun u => projP l.owner (upd k.pc t _ u)
          rw [proj_upd]
          simp [projP]
        · show q.cons = projC (upd k.pc t _ l.owner)
          rw [upd_ne ho, h.cons]
        · intro f
          rw [hfl, h.fl]
          show _ ↔ ∃ m ∈ (k.G.toQueue l.ptr).queued, _
          constructor
          · rintro (h | ⟨m, h1, h2, h3⟩)
            · exact ⟨l.wide, (N.toQueue hl _).2 (Or.inl rfl), rfl, h.symm⟩
            · exact ⟨m, (N.toQueue hl _).2 (Or.inr h1), h2, h3⟩
          · rintro ⟨m, h1, h2, h3⟩
            rcases (N.toQueue hl _).1 h1 with h1 | h1
            · exact Or.inl (by rw [← h3, h1]; rfl)
            · exact Or.inr ⟨m, h1, h2, h3⟩
        · intro f _
          show _ = q.next f
          rw [h.next]
          rfl
      · intro m hm _
        rcases (N.toQueue hl _).1 hm with h1 | h1
        · rw [h1]; exact Nat.le_max_right _ _
        · exact I.wide m h1
      · intro m hm ho' hcl
        rcases (N.toQueue hl _).1 hm with h1 | h1
        · refine absurd ?_ (hcl t)
          show projP l.owner (upd k.pc t _ t) = _
          rw [upd_same, h1]
          simp [projP, PBlock.wide]
        · refine I.ptr m h1 (fun u => ?_)
          have := hcl u
          rw [ho']
          by_cases hu : u = t
          · rw [hu, hpc]; simp [projP]
          · simp only [MS.go, upd_ne hu] at this; exact this
    · show m ∈ (k.G.toQueue l.ptr).live ↔ _
      rw [toQueue_live]
      exact ⟨fun h => h.1, fun h => ⟨h, N.lh m h _ hl⟩⟩
    · intro m hm hm'
      exact absurd ((N.toQueue hl m).2 (Or.inr hm)) hm'
    · intro m hm hm'
      rcases (N.toQueue hl m).1 hm with rfl | h
      · exact ⟨ho, l, r, hl, rfl, hpc⟩
      · exact absurd h hm'

/-- The free of a block by its owner. -/
theorem MInv.lfree {Ω : Env} {cl : Prop} {E : EndSet} {C : Config} {k : MS} (I : MInv Ω cl E k) {t i p r : Nat} (hpc : k.pc t = .lfree i p r) :
    ∃ k' o, mstep C k t = .ok (k', o) ∧ MInv Ω cl E k' ∧ MOut (By E t) k k' t o := by
  have ht := I.lt (t := t) (by rw [hpc]; simp)
  have ok := I.th t
  rw [hpc] at ok
  obtain ⟨hit, okr, hpr, l, hl, rfl, ho⟩ := ok
  have N := PInv.nd I.inv
  obtain ⟨c, hc⟩ := I.inv.chain_some (MSpec.hand_all hl)
  obtain ⟨u, e, J, K⟩ := free_eff (C := C) I.inv (MSpec.hand_all hl) hc
  rw [ho] at J K hc
  obtain ⟨k1, hk1⟩ : ∃ k1 : MS, k1 = { k.setPs (k.ps.put i u) with G := k.G.drop l.ptr } := ⟨_, rfl⟩
  have hlen1 : k1.chs.length = k.chs.length := by rw [hk1]; simp [MS.setPs, PS.put, MS.ps]
  have hw1 : k1.w = u.w := by rw [hk1]; rfl
  have hG1 : k1.G = k.G.drop l.ptr := by rw [hk1]
  have hdel : (PSpec.del ⟨k.G.all, []⟩ i l.ptr) = ⟨k.G.all.filter (fun m => decide (m.ptr ≠ l.ptr)), []⟩ := by
    unfold PSpec.del
    simp only [List.append_nil]
    congr 1
    rw [List.filter_eq_nil_iff]
    intro m hm h
    simp only [decide_eq_true_eq] at h
    have := ptr_eq_of_nodup N.all hm (MSpec.hand_all hl) h.1
    exact h.2 (by rw [this]; exact ho)
  have inv1 : PInv Ω cl k1.ps ⟨k1.G.all, []⟩ := by
    have hps : k1.ps = k.ps.put i u := by rw [hk1]; rfl
    rw [hps, hG1, k.G.drop_all]
    rw [hdel] at J
    exact J
  have hkeep : ∀ m ∈ k.G.all, m.ptr ≠ l.ptr → ∀ x, m.Byte x → k1.w.mem x = k.w.mem x := fun m hm hz x hx => by
    rw [hw1]; exact K m hm hz x hx
  have F := N.frame hl
  have G1 : MInv Ω cl E (k1.go t (.push 0 .idle r)) := by
    refine I.local (t := t) (c := .push 0 .idle r) (by rw [hk1]; rfl) (fun v _ => by rw [hk1]; rfl)
      (by simp only [MS.go]; omega) (Or.inl (by simp only [MS.go]; omega)) inv1 (by rw [hk1]; rfl) (by rw [hk1]; rfl)
      (fun i => by rw [hpc, projP_idle]; rfl) (by rw [hpc]; rfl) ?_ ?_ ?_ ?_ ?_
    · intro m
      show m ∈ k1.G.queued ↔ _
      rw [hG1, drop_queued]
      exact ⟨fun h => h.1, fun h => ⟨h, F m (Or.inl h)⟩⟩
    · intro v m hv
      show (v, m) ∈ k1.G.hand ↔ _
      rw [hG1, drop_hand]
      exact ⟨fun h => h.1, fun h => ⟨h, F m (Or.inr ⟨v, hv, h⟩)⟩⟩
    · exact Keeps.frame (Z := fun m => m.ptr ≠ l.ptr) hkeep F
    · refine okr.at (by rw [hk1]; rfl) (fun m hm e => ?_) (fun m hm e => hkeep m (MSpec.hand_all hm) (by rw [e]; exact hpr.symm))
      show (t, m) ∈ k1.G.hand
      rw [hG1, drop_hand]
      exact ⟨hm, by simp only; rw [e]; exact hpr.symm⟩
    · intro m hm
      have hm : (t, m) ∈ k1.G.hand := hm
      rw [hG1, drop_hand] at hm
      have := I.hand (t, m) hm.1
      rw [hpc] at this
      simp only [MPc.refs, List.mem_cons, List.not_mem_nil, or_false] at this ⊢
      exact this.resolve_left hm.2
  obtain ⟨i1, i2⟩ := G1.finish (k := k) (by omega) (fun m => by
    rw [hG1, drop_live]
    exact ⟨fun h => h.1, fun h => ⟨h, N.lh m h _ hl⟩⟩) (by rw [hk1]; rfl)
    (fun m hm => hkeep m (MSpec.live_all hm) (N.lh m hm _ hl)) (fun m => by
      rw [hG1, drop_queued]
      exact ⟨fun h => h.1, fun h => ⟨h, F m (Or.inl h)⟩⟩)
  refine ⟨_, _, ?_, i1, i2⟩
  unfold mstep
  rw [hpc]
  simp only
  rw [PS.loc_eq hc, Outcome.ok_bind, e, Outcome.ok_bind, hk1]
  rfl

/-- The search in realloc. -/
theorem MInv.rlook {Ω : Env} {cl : Prop} {E : EndSet} {C : Config} {k : MS} (I : MInv Ω cl E k) {t p b n : Nat} (hpc : k.pc t = .rlook p b n) :
    ∃ k' o, mstep C k t = .ok (k', o) ∧ MInv Ω cl E k' ∧ MOut (By E t) k k' t o := by
  have ht := I.lt (t := t) (by rw [hpc]; simp)
  have ok := I.th t
  rw [hpc] at ok
  obtain ⟨l, ok⟩ := ok
  obtain ⟨hg, hp, hn, hs, c0, hc0, hop, ho⟩ := id ok
  obtain ⟨hl, h2, h3, h4⟩ := id ho
  obtain ⟨R, c, e1, hc, hts, J, haddr⟩ := I.look hl
  obtain ⟨cu, hcu⟩ : ∃ c, k.chs[t]? = some c := ⟨_, List.getElem?_eq_getElem ht⟩
  have hloc := PS.loc_eq (s := k.ps) hcu
  have hloc2 := PS.loc_eq (s := MS.ps { k with w := { k.w with regs := R } }) hc
  rw [h2] at e1
  have hstep : mstep C k t = if c.addr = cu.addr then
      .ok (MS.go { k with w := { k.w with regs := R } } t (.rlocal l.owner p b n), none)
    else .ok (MS.go { k with w := { k.w with regs := R } } t (.purge (.alloc b n (.move p)) .idle), none) := by
    unfold mstep
    rw [hpc]
    simp only
    rw [hloc, Outcome.ok_bind, e1, Outcome.ok_bind]
    simp only
    rw [hloc2, Outcome.ok_bind]
    simp only [hts, Bool.false_eq_true, or_false]
    rfl
  have S : Same k { k with w := { k.w with regs := R } } t := ⟨rfl, fun _ h => h, fun _ _ _ _ => rfl⟩
  rw [hstep]
  by_cases ho' : l.owner = t
  · rw [if_pos ((haddr cu hcu).2 ho')]
    refine ⟨_, none, rfl, ?_, .quiet (fun _ _ _ _ => rfl) (fun _ => Iff.rfl) (fun _ => Iff.rfl)⟩
    refine I.local (t := t) (c := .rlocal l.owner p b n) rfl (fun _ _ => rfl) (Nat.le_refl _) (Or.inl ht) J rfl rfl
      (fun i => by rw [hpc]; rfl) (by rw [hpc]; rfl) (fun _ => Iff.rfl) (fun _ _ _ => Iff.rfl) (fun _ _ _ _ => rfl) ?_ ?_
    · exact ⟨Or.inl ho', l, (ok.congr S).congr Same.go, rfl⟩
    · intro m hm
      have := I.hand (t, m) hm
      rw [hpc] at this
      exact this
  · rw [if_neg (fun h => ho' ((haddr cu hcu).1 h))]
    refine ⟨_, none, rfl, ?_, .quiet (fun _ _ _ _ => rfl) (fun _ => Iff.rfl) (fun _ => Iff.rfl)⟩
    refine I.local (t := t) (c := .purge (.alloc b n (.move p)) .idle) rfl (fun _ _ => rfl) (Nat.le_refl _) (Or.inl ht) J rfl rfl
      (fun i => by rw [hpc]; rfl) (by rw [hpc]; rfl) (fun _ => Iff.rfl) (fun _ _ _ => Iff.rfl) (fun _ _ _ _ => rfl) ?_ ?_
    · exact ⟨hg, c0, hc0, hop, hp, hn, l, (ho.congr S).congr Same.go⟩
    · intro m hm
      have := I.hand (t, m) hm
      rw [hpc] at this
      exact this

/-- The resize of a block by its owner. -/
theorem MInv.rlocal {Ω : Env} {cl : Prop} {E : EndSet} {C : Config} {k : MS} (hf : C.reallocFactor ≠ 0) (I : MInv Ω cl E k) {t i p b n : Nat}
    (hpc : k.pc t = .rlocal i p b n) :
    (¬ HasMem k.ps (reqSize b n) ∧ mstep C k t = .ub) ∨
    ∃ k' o, mstep C k t = .ok (k', o) ∧ MInv Ω cl E k' ∧ MOut (By E t) k k' t o := by
  have ht := I.lt (t := t) (by rw [hpc]; simp)
  have ok := I.th t
  rw [hpc] at ok
  obtain ⟨hit, l, ⟨⟨hb, hsz, hcl⟩, hp, hn, hs, c0, hc0, hop, hl, h2, h3, h4⟩, ho⟩ := ok
  have N := PInv.nd I.inv
  have F := N.frame hl
  have hrefs : ∀ m, (t, m) ∈ k.G.hand → m = l := by
    intro m hm
    have := I.hand (t, m) hm
    rw [hpc] at this
    have := List.mem_singleton.1 this
    exact (Prod.mk.inj (N.hand _ hm _ hl (by rw [this, h2]))).2
  obtain ⟨c, hc⟩ := I.inv.chain_some (MSpec.hand_all hl)
  have hreq : alignedSize b n = reqSize b n := by rw [reqSize_eq, if_neg hn]
  have hstep : mstep C k t = (do
      let (v, r) ← chainRealloc (lightSource C) C b ⟨k.ps.w, c⟩ l.ptr n
      let k := { k.setPs (k.ps.put i v) with
        G := if r = l.ptr then k.G.resize l.ptr n else (k.G.drop l.ptr).add t i r n (decide (b ≤ 1)) }
      return k.ret t r) := by
    unfold mstep
    rw [hpc]
    simp only
    rw [ho] at hc
    rw [PS.loc_eq hc, Outcome.ok_bind, h2]
  have hsf : ¬ (l.owner ≠ t ∧ ¬ E.may) := fun h => hit.elim (fun e => h.1 (ho.trans e)) (fun e => h.2 (E.ok _ e))
  rw [hstep]
  rcases realloc_eff (C := C) I.inv (MSpec.hand_all hl) hc hf hb hn hreq hsz hcl (hs.resolve_left hsf) with
    ⟨h, e⟩ | ⟨e, J⟩ | ⟨u, r, e, hr, hrp, a1, a2, J, K, cp⟩
  · left
    refine ⟨h, ?_⟩
    rw [e]; rfl
  · right
    rw [ho] at hc
    obtain ⟨k1, hk1⟩ : ∃ k1 : MS, k1 = { k.setPs (k.ps.put i ⟨k.ps.w, c⟩) with G := k.G.resize l.ptr n } := ⟨_, rfl⟩
    have hps : k1.ps = k.ps := by
      rw [hk1]
      have := PS.put_self hc
      exact this
    have hw1 : k1.w = k.w := congrArg PS.w hps
    have hchs1 : k1.chs = k.chs := congrArg PS.chs hps
    have hG1 : k1.G = k.G.resize l.ptr n := by rw [hk1]
    have hid : ∀ m : PBlock, m.ptr ≠ l.ptr → m.relen l.ptr n = m := fun m h => by unfold PBlock.relen; rw [if_neg h]
    have hptr : ∀ m : PBlock, (m.relen l.ptr n).ptr = m.ptr := fun m => by unfold PBlock.relen; split <;> rfl
    have hmap : ∀ L : List PBlock, (∀ m ∈ L, m.ptr ≠ l.ptr) → L.map (PBlock.relen l.ptr n) = L := fun L h => by
      rw [List.map_congr_left (fun m hm => hid m (h m hm))]; exact List.map_id _
    have hlr : l.relen l.ptr n = { l with len := n } := by unfold PBlock.relen; rw [if_pos rfl]
    have inv1 : PInv Ω cl k1.ps ⟨k1.G.all, []⟩ := by
      rw [hps, hG1, k.G.resize_all]
      exact J
    have hh : (t, { l with len := n }) ∈ k1.G.hand := by
      rw [hG1]
      exact List.mem_map.2 ⟨_, hl, by rw [hlr]⟩
    have G1 : MInv Ω cl E (k1.go t (.push 0 .idle l.ptr)) := by
      refine I.local (t := t) (c := .push 0 .idle l.ptr) (by rw [hk1]; rfl) (fun v _ => by rw [hk1]; rfl)
        (by simp only [MS.go]; rw [hchs1]) (Or.inl (by simp only [MS.go]; rw [hchs1]; exact ht)) inv1 (by rw [hk1]; rfl)
        (by rw [hk1]; rfl) (fun i => by rw [hpc, projP_idle]; rfl) (by rw [hpc]; rfl) ?_ ?_ ?_ ?_ ?_
      · intro m
        show m ∈ k1.G.queued ↔ _
        rw [hG1]
        show m ∈ k.G.queued.map _ ↔ _
        rw [hmap _ (fun m hm => F m (Or.inl hm))]
      · intro v m hv
        show (v, m) ∈ k1.G.hand ↔ _
        rw [hG1]
        show (v, m) ∈ k.G.hand.map _ ↔ _
        rw [List.mem_map]
        constructor
        · rintro ⟨⟨v', m'⟩, h1, h5⟩
          obtain ⟨rfl, rfl⟩ := Prod.mk.inj h5
          rw [hid _ (F m' (Or.inr ⟨_, hv, h1⟩))]
          exact h1
        · intro h1
          exact ⟨_, h1, by rw [hid _ (F m (Or.inr ⟨_, hv, h1⟩))]⟩
      · intro m _ x _
        show k1.w.mem x = _
        rw [hw1]
      · refine ⟨c0, (by rw [hk1]; exact hc0), ?_⟩
        rw [hop]
        refine Or.inr (Or.inr ⟨hp, hn, by rw [h2]; exact hp, _, hh, rfl, rfl, ho ▸ hit, fun h => absurd h2 h, fun l0 hl0 e i hi => ?_⟩)
        rw [h3 l0 hl0 e] at hi
        show k1.w.mem _ = _
        rw [hw1, h4 _ ⟨by omega, by omega⟩, h2]
      · intro m hm
        have hm : (t, m) ∈ k1.G.hand := hm
        rw [hG1] at hm
        obtain ⟨⟨v', m'⟩, h1, h5⟩ := List.mem_map.1 hm
        obtain ⟨rfl, rfl⟩ := Prod.mk.inj h5
        rw [hptr, hrefs m' h1]
        exact List.mem_singleton.2 rfl
    obtain ⟨i1, i2⟩ := G1.finish (k := k) (by rw [hchs1]; exact ht) (fun m => by
      rw [hG1]
      show m ∈ k.G.live.map _ ↔ _
      rw [hmap _ (fun m hm => N.lh m hm _ hl)]) (by rw [hk1]; rfl) (fun m _ x _ => by rw [hw1]) (fun m => by
      rw [hG1]
      show m ∈ k.G.queued.map _ ↔ _
      rw [hmap _ (fun m hm => (N.hq _ hl m hm).symm)])
    refine ⟨_, _, ?_, i1, i2⟩
    rw [e, Outcome.ok_bind, hk1]
    simp only
    rw [if_pos trivial]
    rfl
  · right
    rw [ho] at J K
    obtain ⟨k1, hk1⟩ : ∃ k1 : MS, k1 = { k.setPs (k.ps.put i u) with G := (k.G.drop l.ptr).add t i r n (decide (b ≤ 1)) } :=
      ⟨_, rfl⟩
    have hlen1 : k1.chs.length = k.chs.length := by rw [hk1]; simp [MS.setPs, PS.put, MS.ps]
    have hw1 : k1.w = u.w := by rw [hk1]; rfl
    have hG1 : k1.G = (k.G.drop l.ptr).add t i r n (decide (b ≤ 1)) := by rw [hk1]
    have hdel : (PSpec.del ⟨k.G.all, []⟩ i l.ptr) = ⟨k.G.all.filter (fun m => decide (m.ptr ≠ l.ptr)), []⟩ := by
      unfold PSpec.del
      simp only [List.append_nil]
      congr 1
      rw [List.filter_eq_nil_iff]
      intro m hm h
      simp only [decide_eq_true_eq] at h
      have := ptr_eq_of_nodup N.all hm (MSpec.hand_all hl) h.1
      exact h.2 (by rw [this]; exact ho)
    have inv1 : PInv Ω cl k1.ps ⟨k1.G.all, []⟩ := by
      have hps : k1.ps = k.ps.put i u := by rw [hk1]; rfl
      rw [hps, hG1]
      refine PInv.perm ?_ ((k.G.drop l.ptr).add_all t i n (decide (b ≤ 1)) hr).symm
      rw [k.G.drop_all]
      rw [hdel] at J
      unfold PSpec.add at J
      rw [if_neg hr] at J
      exact J
    have hkeep : ∀ m ∈ k.G.all, m.ptr ≠ l.ptr → ∀ x, m.Byte x → k1.w.mem x = k.w.mem x := fun m hm hz x hx => by
      rw [hw1]; exact K m hm hz x hx
    have G1 : MInv Ω cl E (k1.go t (.push 0 .idle r)) := by
      refine I.local (t := t) (c := .push 0 .idle r) (by rw [hk1]; rfl) (fun v _ => by rw [hk1]; rfl)
        (by simp only [MS.go]; omega) (Or.inl (by simp only [MS.go]; omega)) inv1 (by rw [hk1]; rfl) (by rw [hk1]; rfl)
        (fun i => by rw [hpc, projP_idle]; rfl) (by rw [hpc]; rfl) ?_ ?_ ?_ ?_ ?_
      · intro m
        show m ∈ k1.G.queued ↔ _
        rw [hG1, MSpec.add_queued, drop_queued]
        exact ⟨fun h => h.1, fun h => ⟨h, F m (Or.inl h)⟩⟩
      · intro v m hv
        show (v, m) ∈ k1.G.hand ↔ _
        rw [hG1, MSpec.add_hand hr, drop_hand]
        exact ⟨fun h => (h.resolve_left (fun e => hv (Prod.mk.inj e).1)).1, fun h => Or.inr ⟨h, F m (Or.inr ⟨v, hv, h⟩)⟩⟩
      · exact Keeps.frame (Z := fun m => m.ptr ≠ l.ptr) hkeep F
      · refine ⟨c0, (by rw [hk1]; exact hc0), ?_⟩
        rw [hop]
        refine Or.inr (Or.inr ⟨hp, hn, hr, ⟨i, r, n, decide (b ≤ 1)⟩, ?_, rfl, rfl, hit, fun _ => ⟨a1, a2⟩, fun l0 hl0 e i hi => ?_⟩)
        · show _ ∈ k1.G.hand
          rw [hG1]
          exact (MSpec.add_hand hr).2 (Or.inl rfl)
        · rw [h3 l0 hl0 e] at hi
          show k1.w.mem _ = _
          rw [hw1, cp i hi]
          have := h4 (l.ptr + i) ⟨by omega, by omega⟩
          rw [h2] at this ⊢
          exact this
      · intro m hm
        have hm : (t, m) ∈ k1.G.hand := hm
        rw [hG1, MSpec.add_hand hr, drop_hand] at hm
        rcases hm with h | h
        · rw [(Prod.mk.inj h).2]; exact List.mem_singleton.2 rfl
        · exact absurd (by rw [hrefs m h.1]) h.2
    obtain ⟨i1, i2⟩ := G1.finish (k := k) (by omega) (fun m => by
      rw [hG1, MSpec.add_live, drop_live]
      exact ⟨fun h => h.1, fun h => ⟨h, N.lh m h _ hl⟩⟩) (by rw [hk1]; rfl)
      (fun m hm => hkeep m (MSpec.live_all hm) (N.lh m hm _ hl)) (fun m => by
        rw [hG1, MSpec.add_queued, drop_queued]
        exact ⟨fun h => h.1, fun h => ⟨h, (N.hq _ hl m h).symm⟩⟩)
    refine ⟨_, _, ?_, i1, i2⟩
    rw [e, Outcome.ok_bind, hk1]
    simp only
    rw [if_neg hrp]
    rfl

/-! ## The push -/

/-- A step of a push of thread `t`, up to the result of its call. -/
theorem MInv.push {Ω : Env} {cl : Prop} {E : EndSet} {k k1 : MS} (I : MInv Ω cl E k) {t i r : Nat} {c c' : PPC} (hpc : k.pc t = .push i c r)
    (hchs : k1.chs = k.chs) (hG : k1.G = k.G) (hcall : k1.call = k.call) (hp : k1.pc = k.pc)
    (hhead : ∀ j, j ≠ i → k1.head j = k.head j) (htail : ∀ j, j ≠ i → k1.tail j = k.tail j)
    (inv : PInv Ω cl k1.ps ⟨k.G.all, []⟩)
    (K : ∀ m, (m ∈ k.G.queued ∧ m.owner ≠ i ∨ m ∈ k.G.live ∨ ∃ u, (u, m) ∈ k.G.hand) → ∀ x, m.Byte x → k1.w.mem x = k.w.mem x)
    (hq : ∀ q, Queue.Reach q → QRel k i q → (Queue.pstep q t).head = k1.head i ∧ (Queue.pstep q t).tail = k1.tail i ∧
      (Queue.pstep q t).prod = upd q.prod t c' ∧ (Queue.pstep q t).cons = q.cons ∧
      ∀ f, InFlight q f → k1.nxt f = (Queue.pstep q t).next f)
    (hptr : ∀ l ∈ k.G.queued, l.owner = i → (∀ u, projP i (upd k.pc t (.push i c' r) u) ≠ .clear l.ptr) →
      readLE k1.w.mem (l.ptr + 8) 8 = l.ptr) :
    MInv Ω cl E (k1.go t (.push i c' r)) := by
  have ht := I.lt (t := t) (by rw [hpc]; simp)
  have okr : RetOK E k t r := by have := I.th t; rw [hpc] at this; exact this
  refine I.next (t := t) (c := .push i c' r) i (by simp only [MS.go]; rw [hp]) (fun u _ => congrFun hcall u)
    (by simp only [MS.go]; rw [hchs]) (Or.inl (by simp only [MS.go]; rw [hchs]; exact ht))
    (by simp only [MS.go]; rw [hG]; exact inv) hhead htail ?_ (fun _ => by rw [hpc]; rfl)
    (fun l _ => by simp only [MS.go]; rw [hG]) (fun u l _ => by simp only [MS.go]; rw [hG])
    (fun u l _ hl => K l (Or.inr (Or.inr ⟨u, hl⟩))) (fun l hl ho => K l (Or.inl ⟨hl, ho⟩)) ?_ ?_ ?_
    (fun l hl _ => I.wide l (by simp only [MS.go] at hl; rw [hG] at hl; exact hl)) ?_
  · intro j hj
    rw [hpc]
    simp only [projP]
    rw [if_neg (fun e => hj e.symm), if_neg (fun e => hj e.symm)]
  · exact okr.at (congrFun hcall t) (fun l hl _ => by simp only [MS.go]; rw [hG]; exact hl)
      (fun l hl _ => K l (Or.inr (Or.inr ⟨t, hl⟩)))
  · intro l hl
    simp only [MS.go] at hl
    rw [hG] at hl
    have := I.hand (t, l) hl
    rw [hpc] at this
    exact this
  · obtain ⟨q, R, h⟩ := I.q i
    obtain ⟨h1, h2, h3, h4, h5⟩ := hq q R h
    have hfl := fun f => Queue.inFlight_prod R t f
    refine QRel.put (R.prod t) h1 h2 ?_ ?_ ?_ (fun f hf => h5 f ((hfl f).1 hf))
    · rw [h3, h.prod]
      simp only [MS.go]
      rw [hp, proj_upd]
      simp [projP]
    · rw [h4, h.cons]
      simp only [MS.go]
      rw [hp]
      by_cases hi : i = t
      · rw [hi, upd_same, hpc]; rfl
      · rw [upd_ne hi]
    · intro f
      rw [hfl, h.fl]
      simp only [MS.go]
      rw [hG]
  · intro l hl ho hcl
    simp only [MS.go] at hl hcl
    rw [hG] at hl
    rw [hp] at hcl
    exact hptr l hl ho hcl

/-- The header of a block in use is readable, and the 16 bytes of a queue entry are addressable. -/
theorem getChunk_op {Ω : Env} {cl : Prop} {s : PS} {G : PSpec} (I : PInv Ω cl s G) {l : PBlock} (hl : l ∈ G.live) :
    ∃ v, getChunk s.w.mem l.ptr = .ok v ∧ v ≠ 0 ∧ l.ptr < 2 ^ 64 := by
  obtain ⟨H, L, P, B, K⟩ := I
  obtain ⟨g, c, hg, hc, hq, hp, hfit, _⟩ := K.live l hl
  obtain ⟨cc, hcc, T⟩ := B.getH hg
  obtain ⟨v, e1, e2, _⟩ := getChunk_used T.ch.wf T.ch.mem hc
  have hr := T.ch.room c hc
  have := uptr_lt T.ch.wf hc hr
  rw [hp] at e1 this
  exact ⟨v, e1, e2, by omega⟩

/-- The steps of a push. -/
theorem MInv.pushStep {Ω : Env} {cl : Prop} {E : EndSet} {C : Config} {k : MS} (I : MInv Ω cl E k) {t i r : Nat} {c : PPC}
    (hpc : k.pc t = .push i c r) :
    ∃ k' o, mstep C k t = .ok (k', o) ∧ MInv Ω cl E k' ∧ MOut (By E t) k k' t o := by
  have ht := I.lt (t := t) (by rw [hpc]; simp)
  have okr : RetOK E k t r := by have := I.th t; rw [hpc] at this; exact this
  have N := PInv.nd I.inv
  have hstep : mstep C k t = MpcAlloc.pushStep k t i r c := by unfold mstep; rw [hpc]
  rw [hstep]
  have hrefs : ∀ l, (t, l) ∈ k.G.hand → l.ptr = r := by
    intro l hl
    have := I.hand (t, l) hl
    rw [hpc] at this
    exact List.mem_singleton.1 this
  have hprod : ∀ q, QRel k i q → q.prod t = c := fun q h => by rw [h.prod]; simp only; rw [hpc]; simp [projP]
  have hne : ∀ l ∈ k.G.queued, l.owner = i → ∀ m, (m ∈ k.G.queued ∧ m.owner ≠ i ∨ m ∈ k.G.live ∨ ∃ u, (u, m) ∈ k.G.hand) →
      m ∈ k.G.all ∧ m.ptr ≠ l.ptr := by
    rintro l hl ho m (⟨hm, ho'⟩ | hm | ⟨u, hm⟩)
    · exact ⟨MSpec.queued_all hm, fun e => ho' (by rw [N.queued m hm l hl e]; exact ho)⟩
    · exact ⟨MSpec.live_all hm, N.lq m hm l hl⟩
    · exact ⟨MSpec.hand_all hm, N.hq _ hm l hl⟩
  cases c with
  | idle =>
    obtain ⟨i1, i2⟩ := I.done (k1 := k) (r := r) ht rfl rfl rfl rfl rfl rfl rfl I.inv (fun j => by rw [hpc]; exact projP_idle)
      (by rw [hpc]; rfl) okr hrefs
    exact ⟨_, _, rfl, i1, i2⟩
  | clear e =>
    obtain ⟨q, R, h⟩ := I.q i
    obtain ⟨l, hl, ho, rfl⟩ := (h.fl e).1 (Or.inl ⟨t, Or.inl (hprod q h)⟩)
    obtain ⟨v, e1, e2, e3⟩ := getChunk_op I.inv (MSpec.queued_all hl)
    have hwd := I.wide l hl
    obtain ⟨m', hm'⟩ : ∃ m', m' = writeLE (writeLE k.w.mem (l.ptr + 8) 8 l.ptr) l.ptr 8 0 := ⟨_, rfl⟩
    obtain ⟨J, K⟩ := store_eff (m' := m') I.inv (MSpec.queued_all hl) (fun x hx => by
      unfold PBlock.Byte at hx
      rw [hm', writeLE_other (by omega), writeLE_other (by omega)]
      rfl)
    have r0 : readLE m' l.ptr 8 = 0 := by rw [hm', readLE_writeLE_same]
    have r8 : readLE m' (l.ptr + 8) 8 = l.ptr := by
      rw [hm', readLE_writeLE_other (by omega), readLE_writeLE_same]
      exact Nat.mod_eq_of_lt (by omega)
    have K' : ∀ m ∈ k.G.all, m.ptr ≠ l.ptr → ∀ x, m.Byte x → m' x = k.w.mem x := K
    refine ⟨(k.setMem m').go t (.push i (.swap l.ptr) r), none, ?_, ?_, ?_⟩
    · unfold MpcAlloc.pushStep
      simp only
      have e1 : getChunk k.w.mem l.ptr = .ok v := e1
      rw [e1, Outcome.ok_bind, if_neg e2, hm']
      rfl
    · refine I.push (k1 := k.setMem m') hpc rfl rfl rfl rfl (fun _ _ => rfl) (fun _ _ => rfl) J
        (fun m hm => K' m (hne l hl ho m hm).1 (hne l hl ho m hm).2) ?_ ?_
      · intro q R h
        have hpq := hprod q h
        unfold Queue.pstep
        rw [hpq]
        refine ⟨h.head, h.tail, rfl, rfl, fun f hf => ?_⟩
        obtain ⟨l2, g1, g2, rfl⟩ := (h.fl f).1 hf
        show readLE m' l2.ptr 8 = upd q.next l.ptr 0 l2.ptr
        by_cases hll : l2.ptr = l.ptr
        · rw [hll, upd_same, r0]
        · have := I.wide l2 g1
          rw [upd_ne hll, h.next]
          exact readLE_congr (fun x a b => K' l2 (MSpec.queued_all g1) hll x ⟨a, by omega⟩)
      · intro l2 g1 g2 hcl
        show readLE m' (l2.ptr + 8) 8 = l2.ptr
        by_cases hll : l2.ptr = l.ptr
        · rw [hll, r8]
        · have := I.wide l2 g1
          rw [readLE_congr (m := k.w.mem) (fun x a b => K' l2 (MSpec.queued_all g1) hll x ⟨by omega, by omega⟩)]
          refine I.ptr l2 g1 (fun u => ?_)
          rw [g2]
          by_cases hu : u = t
          · rw [hu, hpc]
            simp only [projP, if_pos]
            intro h
            exact hll (PPC.clear.inj h).symm
          · have := hcl u
            rw [upd_ne hu] at this
            exact this
    · exact .quiet (fun m hm => K' m (MSpec.live_all hm) (N.lq m hm l hl)) (fun _ => Iff.rfl) (fun _ => Iff.rfl)
  | swap e =>
    refine ⟨{ k with tail := upd k.tail i e }.go t (.push i (.link e (k.tail i)) r), none, rfl, ?_,
      .quiet (fun _ _ _ _ => rfl) (fun _ => Iff.rfl) (fun _ => Iff.rfl)⟩
    refine I.push (k1 := { k with tail := upd k.tail i e }) hpc rfl rfl rfl rfl (fun _ _ => rfl) (fun _ hj => upd_ne hj) I.inv
      (fun _ _ _ _ => rfl) ?_ ?_
    · intro q R h
      have hpq := hprod q h
      unfold Queue.pstep
      rw [hpq]
      refine ⟨h.head, (upd_same _ _ _).symm, by simp only; rw [h.tail], rfl, fun f hf => ?_⟩
      show _ = q.next f
      rw [h.next]
      rfl
    · intro l2 g1 g2 hcl
      refine I.ptr l2 g1 (fun u => ?_)
      rw [g2]
      by_cases hu : u = t
      · rw [hu, hpc]; simp [projP]
      · have := hcl u
        rw [upd_ne hu] at this
        exact this
  | link e p =>
    have hcl' : ∀ l2 ∈ k.G.queued, l2.owner = i → (∀ u, projP i (upd k.pc t (.push i .idle r) u) ≠ .clear l2.ptr) →
        readLE k.w.mem (l2.ptr + 8) 8 = l2.ptr := by
      intro l2 g1 g2 hcl
      refine I.ptr l2 g1 (fun u => ?_)
      rw [g2]
      by_cases hu : u = t
      · rw [hu, hpc]; simp [projP]
      · have := hcl u
        rw [upd_ne hu] at this
        exact this
    unfold MpcAlloc.pushStep
    simp only
    -- the call then ends
    have fin : ∀ k1 : MS, k1.chs = k.chs → k1.G = k.G → k1.call = k.call → MInv Ω cl E (k1.go t (.push i .idle r)) →
        (∀ m ∈ k.G.live, ∀ x, m.Byte x → k1.w.mem x = k.w.mem x) →
        MInv Ω cl E (k1.ret t r).1 ∧ MOut (By E t) k (k1.ret t r).1 t (k1.ret t r).2 := by
      intro k1 f1 f2 f3 f4 f5
      refine MInv.finish (k := k) ?_ (by rw [f1]; exact ht) (fun _ => by rw [f2]) (by rw [f3]) f5 (fun _ => by rw [f2])
      have ok2 := f4.th t
      simp only [MS.go, upd_same] at ok2
      refine f4.local (t := t) (c := .push 0 .idle r) (by simp only [MS.go]; rw [upd_upd]) (fun _ _ => rfl) (Nat.le_refl _)
        (Or.inl (by simp only [MS.go]; rw [f1]; exact ht)) f4.inv rfl rfl (fun j => by simp only [MS.go, upd_same]; rw [projP_idle, projP_idle])
        (by simp only [MS.go, upd_same]; rfl) (fun _ => Iff.rfl) (fun _ _ _ => Iff.rfl) (fun _ _ _ _ => rfl) ?_ ?_
      · exact RetOK.at (k := k1.go t (.push i .idle r)) ok2 rfl (fun _ h _ => h) (fun _ _ _ _ _ => rfl)
      · intro l hl
        have := f4.hand (t, l) hl
        simp only [MS.go, upd_same] at this
        exact this
    by_cases hp0 : p = 0
    · rw [if_pos hp0]
      obtain ⟨i1, i2⟩ := fin { k with head := upd k.head i e } rfl rfl rfl (by
        refine I.push (k1 := { k with head := upd k.head i e }) hpc rfl rfl rfl rfl (fun _ hj => upd_ne hj) (fun _ _ => rfl) I.inv
          (fun _ _ _ _ => rfl) ?_ hcl'
        intro q R h
        have hpq := hprod q h
        unfold Queue.pstep
        rw [hpq]
        simp only
        rw [if_pos hp0]
        refine ⟨(upd_same _ _ _).symm, h.tail, rfl, rfl, fun f hf => ?_⟩
        show _ = q.next f
        rw [h.next]
        rfl) (fun _ _ _ _ => rfl)
      exact ⟨_, _, rfl, i1, i2⟩
    · rw [if_neg hp0]
      obtain ⟨q, R, h⟩ := I.q i
      obtain ⟨f1, f2⟩ := Queue.inFlight_link R (hprod q h)
      obtain ⟨l, hl, ho, rfl⟩ := (h.fl p).1 (f2 hp0)
      obtain ⟨le, hle, _, rfl⟩ := (h.fl e).1 f1
      obtain ⟨v, _, _, e3⟩ := getChunk_op I.inv (MSpec.queued_all hle)
      have hwd := I.wide l hl
      obtain ⟨m', hm'⟩ : ∃ m', m' = writeLE k.w.mem l.ptr 8 le.ptr := ⟨_, rfl⟩
      obtain ⟨J, K⟩ := store_eff (m' := m') I.inv (MSpec.queued_all hl) (fun x hx => by
        unfold PBlock.Byte at hx
        rw [hm', writeLE_other (by omega)]
        rfl)
      have K' : ∀ m ∈ k.G.all, m.ptr ≠ l.ptr → ∀ x, m.Byte x → m' x = k.w.mem x := K
      have r0 : readLE m' l.ptr 8 = le.ptr := by
        rw [hm', readLE_writeLE_same]
        exact Nat.mod_eq_of_lt (by omega)
      obtain ⟨i1, i2⟩ := fin (k.setMem m') rfl rfl rfl (by
        refine I.push (k1 := k.setMem m') hpc rfl rfl rfl rfl (fun _ _ => rfl) (fun _ _ => rfl) J
          (fun m hm => K' m (hne l hl ho m hm).1 (hne l hl ho m hm).2) ?_ ?_
        · intro q R h
          have hpq := hprod q h
          unfold Queue.pstep
          rw [hpq]
          simp only
          rw [if_neg hp0]
          refine ⟨h.head, h.tail, rfl, rfl, fun f hf => ?_⟩
          obtain ⟨l2, g1, g2, rfl⟩ := (h.fl f).1 hf
          show readLE m' l2.ptr 8 = upd q.next l.ptr le.ptr l2.ptr
          by_cases hll : l2.ptr = l.ptr
          · rw [hll, upd_same, r0]
          · have := I.wide l2 g1
            rw [upd_ne hll, h.next]
            exact readLE_congr (fun x a b => K' l2 (MSpec.queued_all g1) hll x ⟨a, by omega⟩)
        · intro l2 g1 g2 hcl
          show readLE m' (l2.ptr + 8) 8 = l2.ptr
          have := I.wide l2 g1
          refine Eq.trans ?_ (hcl' l2 g1 g2 hcl)
          by_cases hll : l2.ptr = l.ptr
          · rw [hll, hm', readLE_writeLE_other (by omega)]
          · exact readLE_congr (fun x a b => K' l2 (MSpec.queued_all g1) hll x ⟨by omega, by omega⟩)) (fun m hm => K' m (MSpec.live_all hm) (N.lq m hm l hl))
      refine ⟨_, _, ?_, i1, i2⟩
      rw [hm']

end MpcAlloc
