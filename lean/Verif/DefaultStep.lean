import Verif.DefaultOps

/-
Invariant of the process whose threads switch between the chains: resize, first call of a thread, reachable states.
-/

namespace MpcAlloc

variable {Ω : Env} {e : ES} {G : SwSpec} {a buf : Nat} {A : AHeap} {Lb : List Block}

theorem CInv.loc (I : CInv e G a buf Ω A Lb) {k : Cur} (hk : k.Ok e) :
    ∃ v, e.loc k = .ok v ∧ (k = .egg → v.c.addr = a) ∧ ∀ t, k = .ch t → e.p.chs[t]? = some v.c := by
  cases k with
  | none => exact absurd rfl hk.1
  | egg => exact ⟨_, rfl, fun _ => I.addr, by rintro _ ⟨⟩⟩
  | ch t =>
    have hc := List.getElem?_eq_getElem (hk.2 t rfl)
    exact ⟨_, PS.loc_eq hc, by rintro ⟨⟩, by rintro _ ⟨⟩; exact hc⟩

theorem CInv.after_P (I : CInv e G a buf Ω A Lb) {l : PBlock} (hl : l ∈ G.P.live) (k : Cur) (h : Nat) {n : Nat} (hn : n ≠ 0)
    (r : Nat) : G.after k (.realloc l.ptr h n) r =
      if k = .ch l.owner then
        (if r = l.ptr then { G with P := { G.P with live := G.P.live.map (fun m => if m.ptr = l.ptr then { m with len := n } else m) } }
        else (G.del k l.ptr).add k r n (decide (h ≤ 1)))
      else ((G.drain k).del k l.ptr).add k r n (decide (h ≤ 1)) := by
  have hp := I.ei.p.ptr hl
  have h1 : G.isOf .egg l.ptr = false := by
    show G.E.any _ = false
    rw [List.any_eq_false]
    intro m hm
    simpa using I.ptr_ne hl hm
  have h2 : G.isOf k l.ptr = decide (k = .ch l.owner) := by
    cases k with
    | none => rfl
    | egg => exact h1
    | ch t =>
      show G.P.mine t l.ptr = _
      rw [mine_iff I.ei.p hl, decide_eq_decide]
      constructor
      · rintro rfl; rfl
      · intro h; injection h with h; exact h.symm
  have h3 : G.resize l.ptr n = { G with P := { G.P with live := G.P.live.map (fun m => if m.ptr = l.ptr then { m with len := n } else m) } } := by
    unfold SwSpec.resize
    congr 1
    refine (List.map_congr_left (fun m hm => ?_)).trans (List.map_id _)
    rw [if_neg (I.ptr_ne hl hm)]
    rfl
  unfold SwSpec.after
  simp only
  rw [if_neg hp, if_neg hn, h1, h2, h3]
  simp

theorem CInv.after_E (I : CInv e G a buf Ω A Lb) {l : Block} (hl : l ∈ G.E) (k : Cur) (h : Nat) {n : Nat} (hn : n ≠ 0)
    (r : Nat) : G.after k (.realloc l.ptr h n) r = { G with E := account G.E (.realloc l.ptr h n) r } := by
  have hp := I.ptr (.egg hl)
  have h1 : G.isOf .egg l.ptr = true := by
    show G.E.any _ = true
    rw [List.any_eq_true]
    exact ⟨l, hl, by simp⟩
  have h3 : G.resize l.ptr n = { G with E := G.E.map (fun m => if m.ptr = l.ptr then { m with len := n } else m) } := by
    unfold SwSpec.resize
    congr 1
    show (⟨_, G.P.pend⟩ : PSpec) = ⟨G.P.live, G.P.pend⟩
    congr 1
    refine (List.map_congr_left (fun m hm => ?_)).trans (List.map_id _)
    rw [if_neg (fun h => I.ptr_ne hm hl h.symm)]
    rfl
  unfold SwSpec.after account
  simp only
  rw [if_neg hp, if_neg hn, h1, if_pos rfl, h3, I.del_E hl]
  by_cases h4 : r = l.ptr
  · rw [if_pos h4, if_neg hp, if_neg (by rw [h4]; exact hp), if_pos h4]
  · rw [if_neg h4, if_neg hp]
    unfold SwSpec.add
    simp only
    by_cases h5 : r = 0
    · rw [if_pos h5, if_pos h5]
    · rw [if_neg h5, if_neg h5, if_neg h4]

theorem PSize.egg' {b n : Nat} (h : PSize (reqSize b n)) (hn : n ≠ 0) : SizeOK [(buf, MB2)] b n := by
  have := h.egg (buf := buf)
  rwa [if_neg hn] at this

/-- Resize. -/
theorem CInv.realloc {C : Config} (hf : C.reallocFactor ≠ 0) (I : CInv e G a buf Ω A Lb) {k : Cur} (hk : k.Ok e)
    {p z h n : Nat} {pl : Bool} {o : Cur} (hl : G.Live p z pl o) (hn : n ≠ 0) (hb : GoodBound h) (hsz : PSize (reqSize h n))
    (hsafe : (o ≠ .egg ∧ o ≠ k) ∨ pl = true ∨ n ≤ z) :
    (k ≠ .egg ∧ o ≠ .egg ∧ ¬ HasMem e.p (reqSize h n) ∧ curRealloc C h e k p n = .ub) ∨
    ∃ e' r Ω' A' Lb', curRealloc C h e k p n = .ok (e', r) ∧
      CInv e' (G.after k (.realloc p h n) r) a buf Ω' A' Lb' ∧
      SwKeeps e e' G (fun q => q ≠ p) ∧ e'.p.chs.length = e.p.chs.length ∧ (r ≠ 0 → r ≠ p → Aligned h r) ∧
      (r ≠ 0 → ∀ i, i < min z n → e'.p.w.mem (r + i) = e.p.w.mem (p + i)) ∧
      (r = 0 → (o = .egg ∨ k = .egg) ∧ A.Lacks h n) ∧
      (r = p → o = .egg ∨ o = k) := by
  have hpz := I.ptr hl
  obtain ⟨v, e1, ad1, ad2⟩ := I.loc hk
  unfold curRealloc
  rw [if_neg hpz, if_neg hn, e1, Outcome.ok_bind]
  cases hl with
  | @egg l hl =>
    right
    obtain ⟨R, e2, e4, I2, ha⟩ := I.lookupE hl
    have hlow := I.low
    obtain ⟨w, r, Ω', A', ex, I', _, _, _, k1, k2, cp, _, al⟩ := I2.eggOp (C := C) hf (op := .realloc l.ptr h n)
      ⟨hb, hsz.egg' hn, Or.inr ⟨l, hl, rfl, Or.inr (hsafe.resolve_left (fun h => h.1 rfl))⟩⟩
      (by rintro _ _ ⟨⟩) (by rintro _ _ ⟨⟩)
    obtain ⟨al1, al2⟩ := al _ _ _ rfl
    have ex' : chainRealloc (lightSource C) C h ⟨(e.setRegs R).p.w, (e.setRegs R).egg⟩ l.ptr n = .ok (w, r) := ex
    rw [e2, Outcome.ok_bind]
    simp only
    rw [if_neg (by omega), I.own, if_neg ha]
    have e4' : ES.chainAt { p := { w := { e.p.w with regs := R }, chs := e.p.chs }, egg := e.egg } a = .ok .egg := e4
    rw [e4', Outcome.ok_bind]
    have e5 : ES.loc { p := { w := { e.p.w with regs := R }, chs := e.p.chs }, egg := e.egg } .egg =
      .ok ⟨(e.setRegs R).p.w, (e.setRegs R).egg⟩ := rfl
    rw [e5, Outcome.ok_bind]
    simp only
    rw [if_pos (Or.inr (by show e.egg.threadSafe = true; exact I.ts)), ex', Outcome.ok_bind]
    refine ⟨_, r, Ω', A', account Lb (.realloc l.ptr h n) r, rfl, ?_,
      SwKeeps.mk (e' := (e.setRegs R).put .egg w) (fun m hm _ => k1 m hm trivial)
      (fun m hm hne x hx => k2 m hm ?_ x hx), rfl, al1, fun hr => cp _ _ _ rfl hr l hl rfl,
      fun hr => ⟨Or.inl trivial, al2 hr hn⟩, fun _ => Or.inl trivial⟩
    · rw [I.after_E hl k h hn]
      exact I'
    · have hmf : m ∈ G.E.filter (fun l' => decide (l'.ptr ≠ l.ptr)) := List.mem_filter.2 ⟨hm, by simpa using hne⟩
      unfold account
      simp only
      rw [if_neg hpz]
      split
      · exact ⟨m, hmf, rfl⟩
      · split
        · exact ⟨m, List.mem_map.2 ⟨m, hm, if_neg hne⟩, rfl⟩
        · exact ⟨m, List.mem_cons_of_mem _ hmf, rfl⟩
  | @ch l hl =>
    obtain ⟨R, b, c, e2, hb0, e3, hcz, hc2, e4, hts, I2, hne⟩ := I.lookupP hl
    have hc3 : (e.setRegs R).p.chs[l.owner]? = some c := hc2
    have hreq : alignedSize h n = reqSize h n := by rw [reqSize_eq, if_neg hn]
    have hown : c.addr = v.c.addr ↔ k = .ch l.owner := by
      cases k with
      | none => exact absurd rfl hk.1
      | egg =>
        rw [ad1 rfl]
        exact ⟨fun h => absurd h hne, by rintro ⟨⟩⟩
      | ch t =>
        have h2 := ad2 t rfl
        constructor
        · intro h
          obtain ⟨H, L, D, B, _⟩ := I.ei.p
          rw [B.addrs _ _ _ _ hc2 h2 h]
        · intro h
          injection h with h
          subst h
          rw [hc2] at h2
          rw [Option.some.inj h2]
    rw [e2, Outcome.ok_bind]
    simp only
    rw [if_neg hb0, e3, if_neg hcz]
    have e4' : ES.chainAt { p := { w := { e.p.w with regs := R }, chs := e.p.chs }, egg := e.egg } c.addr = .ok (.ch l.owner) := e4
    rw [e4', Outcome.ok_bind]
    have e5 : ES.loc { p := { w := { e.p.w with regs := R }, chs := e.p.chs }, egg := e.egg } (.ch l.owner) =
      .ok ⟨(e.setRegs R).p.w, c⟩ := PS.loc_eq hc3
    rw [e5, Outcome.ok_bind]
    simp only
    by_cases ho : k = .ch l.owner
    · rw [if_pos (Or.inl (hown.2 ho))]
      rcases realloc_eff (C := C) I2.ei.p hl hc3 hf hb hn hreq hsz (fun h => h.elim)
        (hsafe.resolve_left (fun g => g.2 ho.symm)) with ⟨h1, e6⟩ | ⟨e6, I3⟩ | ⟨u, r, e6, hr, hrp, a1, a2, I3, k3, cp⟩
      · left
        refine ⟨by rw [ho]; rintro ⟨⟩, by rintro ⟨⟩, h1, ?_⟩
        rw [e6]; rfl
      · right
        obtain ⟨I4, kE⟩ := I2.ofP I3
        have hs : (e.setRegs R).put (.ch l.owner) ⟨(e.setRegs R).p.w, c⟩ = e.setRegs R := by
          unfold ES.put
          simp only
          rw [PS.put_self hc3]
        refine ⟨e.setRegs R, l.ptr, Ω, A, Lb, ?_, ?_, fun _ _ _ _ _ _ _ _ _ => rfl, rfl, fun _ h => absurd rfl h, fun _ _ _ => rfl,
          fun h => absurd h hpz, fun _ => Or.inr ho.symm⟩
        · rw [e6, Outcome.ok_bind]
          exact congrArg (fun q => Outcome.ok (q, l.ptr)) hs
        · rw [I.after_P hl k h hn, if_pos ho, if_pos rfl]
          exact I4
      · right
        obtain ⟨I4, kE⟩ := I2.ofP I3
        refine ⟨(e.setRegs R).put (.ch l.owner) u, r, Ω, A, Lb, by rw [e6, Outcome.ok_bind]; rfl, ?_,
          SwKeeps.mk (e' := (e.setRegs R).put (.ch l.owner) u) k3 (fun m hm _ => kE m hm), PS.put_len _ _ _,
          fun _ _ => ⟨a1, a2⟩, fun _ => cp, fun h => absurd h hr, fun h => absurd h hrp⟩
        rw [I.after_P hl k h hn, if_pos ho, if_neg hrp, I.del_P hl k l.owner ⟨fun _ => ho, fun _ => rfl⟩, ho]
        exact I4
    · rw [if_neg (by rw [hts]; simp [mt hown.1 ho])]
      have hk2 : k.Ok (e.setRegs R) := hk
      rcases I2.reallocInter (C := C) hf hk2 hl hn hb hsz with ⟨h0, h1, e6⟩ | ⟨e', r, Ω', A', Lb', e6, I3, k3, len, hrp, al, cp, hz⟩
      · exact Or.inl ⟨h0, by rintro ⟨⟩, h1, e6⟩
      · right
        refine ⟨e', r, Ω', A', Lb', e6, ?_, k3, len, fun hr _ => al hr, cp, fun h => ⟨Or.inr (hz h).1, (hz h).2⟩, fun h => absurd h hrp⟩
        rw [I.after_P hl k h hn, if_neg ho]
        exact I3

/-- First call of a thread. -/
theorem CInv.spawn {C : Config} (I : CInv e G a buf Ω A Lb) {h : Nat} (hb : GoodBound h) (hsz : h + CHAIN_SIZE + 16 < W64) :
    (eggSpawn C h e = .ub ∧ A.Lacks h CHAIN_SIZE) ∨
    ∃ e' Ω' A' Lb', eggSpawn C h e = .ok e' ∧ CInv e' G a buf Ω' A' Lb' ∧ SwKeeps e e' G (fun _ => True) ∧
      e'.p.chs.length = e.p.chs.length + 1 ∧ e'.p.w.src = e.p.w.src := by
  rcases I.ei.spawn_full (C := C) hb hsz with h | ⟨e', Ω', A', Lb', c, d, h1, h2, h3, h4, h5, h6, h7, h8, h9, h10, r, rfl, h11⟩
  · exact Or.inl h
  · right
    refine ⟨e', Ω', A', _, h1, ⟨h2, ?_, ?_, ?_, ?_, I.low, ?_, I.sub.trans (List.sublist_cons_self _ _), ?_⟩,
      SwKeeps.mk h5 (fun l hl _ => h9 l (I.sub.subset hl)), h6, h10⟩
    · rw [h7]; exact I.addr
    · rw [h7]; exact I.ts
    · rw [h7]; exact I.rfq
    · rw [h7]; exact I.base
    · rw [← I.own]
      exact readLE_congr (fun x g1 g2 => h8 x (by omega) (by omega))
    · intro l hl t ht
      rw [h11] at ht
      rcases List.mem_append.1 ht with ht | ht
      · exact I.apart l hl t ht
      · rw [List.mem_singleton] at ht
        subst ht
        have hn := h2.h.live.nodup
        rw [List.map_cons, List.nodup_cons] at hn
        intro hc
        exact hn.1 (List.mem_map.2 ⟨l, I.sub.subset hl, hc⟩)

/-- The chain of the thread. -/
theorem CInv.localChain {C : Config} {s : SwState} (I : CInv s.e G a buf Ω A Lb)
    (hc : ∀ u i, s.cur u = .ch i → i < s.e.p.chs.length) (u : Nat) {h : Nat} (hb : GoodBound h)
    (hsz : h + CHAIN_SIZE + 16 < W64) :
    (s.cur u = .none ∧ localChain C h s u = .ub ∧ A.Lacks h CHAIN_SIZE) ∨
    ∃ s' Ω' A' Lb', localChain C h s u = .ok (s', s.next u) ∧ CInv s'.e G a buf Ω' A' Lb' ∧
      SwKeeps s.e s'.e G (fun _ => True) ∧ s.e.p.chs.length ≤ s'.e.p.chs.length ∧ (s.next u).Ok s'.e ∧
      (s.cur u ≠ .none → s' = s ∧ Ω' = Ω ∧ A' = A ∧ Lb' = Lb) ∧
      (s.cur u = .none → s'.e.p.chs.length = s.e.p.chs.length + 1) ∧ s'.cur u = s.next u ∧
      (∀ v, v ≠ u → s'.cur v = s.cur v) ∧ (∀ v i, s'.cur v = .ch i → i < s'.e.p.chs.length) ∧
      s'.e.p.w.src = s.e.p.w.src := by
  unfold MpcAlloc.localChain SwState.next
  cases hcu : s.cur u with
  | egg =>
    exact Or.inr ⟨s, Ω, A, Lb, rfl, I, fun _ _ _ _ _ _ _ _ _ => rfl, Nat.le_refl _, ⟨by rintro ⟨⟩, by rintro _ ⟨⟩⟩,
      fun _ => ⟨rfl, rfl, rfl, rfl⟩, by rintro ⟨⟩, hcu, fun _ _ => rfl, hc, rfl⟩
  | ch i =>
    exact Or.inr ⟨s, Ω, A, Lb, rfl, I, fun _ _ _ _ _ _ _ _ _ => rfl, Nat.le_refl _,
      ⟨by rintro ⟨⟩, by rintro _ ⟨⟩; exact hc u i hcu⟩,
      fun _ => ⟨rfl, rfl, rfl, rfl⟩, by rintro ⟨⟩, hcu, fun _ _ => rfl, hc, rfl⟩
  | none =>
    simp only
    unfold setupTls
    rcases I.spawn (C := C) hb hsz with ⟨e1, hn⟩ | ⟨e', Ω', A', Lb', e1, I', k', len, hsrc⟩
    · left
      refine ⟨trivial, ?_, hn⟩
      have : eggSpawn C h (setDefault s u .egg).1.e = .ub := e1
      simp only
      rw [this]
      rfl
    · right
      have e1' : eggSpawn C h (setDefault s u .egg).1.e = .ok e' := e1
      refine ⟨⟨e', fun v => if v = u then .ch s.e.p.chs.length else s.cur v⟩, Ω', A', Lb', ?_, I', k', by simp only; omega,
        ⟨by rintro ⟨⟩, by rintro i ⟨⟩; simp only; omega⟩, fun h => absurd rfl h, fun _ => len, if_pos rfl, fun v hv => if_neg hv, ?_, hsrc⟩
      · simp only
        rw [e1', Outcome.ok_bind, Outcome.pure_eq]
        unfold setDefault
        simp only
        congr 2
        congr 1
        funext v
        by_cases hv : v = u
        · simp [hv]
        · simp [hv]
      · intro v i hv
        simp only at hv ⊢
        split at hv
        · injection hv with hv; omega
        · have := hc v i hv
          omega

/-- The walk of the buffer finds the free chunks of the egg chain. -/
theorem CInv.lacks {s : SwState} (I : CInv s.e G a buf Ω A Lb) {b n : Nat} (h : A.Lacks b n)
    (hs : n + (if 1 < b then b else 0) + 16 < W64) : ¬ EggHas s b n := by
  rintro ⟨l, x, sz, h1, h2, h3⟩
  rw [I.base] at h1
  have hF := I.ei.h.hasOf (y := (buf, MB2)) (by simp) h1 h2
  obtain ⟨d, hd, d1, d2⟩ := seg_of_has I.ei.h.wf hF
  rw [I.ei.h.bufs, List.mem_singleton] at hd
  subst hd
  simp only at d1 d2
  have h4 := h _ hF rfl (by simp only; omega)
  have hge := (I.ei.h.wf.has_wf hF).ge
  have hal : alignedSize b n = n + (if 1 < b then b else 0) := by unfold alignedSize; split <;> omega
  rw [hal, calc_eq hs] at h4
  simp only at h4 hge
  omega

theorem PSize.small {b n : Nat} (h : PSize (reqSize b n)) : (if n = 0 then 1 else n) + (if 1 < b then b else 0) + 16 < W64 := by
  unfold PSize reqSize at h
  have := h.1
  omega

theorem del_gone {G : SwSpec} {k : Cur} {p n : Nat} {pl : Bool} {o : Cur} : ¬ (G.del k p).Live p n pl o := by
  have key : ∀ q n pl o, (G.del k p).Live q n pl o → q ≠ p := by
    intro q n pl o h
    cases h with
    | @ch l h =>
      have h : l ∈ G.P.live.filter _ := h
      simpa using (List.mem_filter.1 h).2
    | @egg l h =>
      have h : l ∈ G.E.filter _ := h
      simpa using (List.mem_filter.1 h).2
  exact fun h => key p n pl o h rfl

theorem add_cases {G : SwSpec} {k : Cur} {r z p n : Nat} {pl pl' : Bool} {o : Cur} (h : (G.add k r z pl).Live p n pl' o) :
    (p = r ∧ n = z ∧ o = k ∧ r ≠ 0) ∨ G.Live p n pl' o := by
  cases k with
  | none => exact Or.inr h
  | egg =>
    unfold SwSpec.add at h
    simp only at h
    by_cases hr : r = 0
    · rw [if_pos hr] at h; exact Or.inr h
    · rw [if_neg hr] at h
      cases h with
      | ch h => exact Or.inr (.ch h)
      | egg h =>
        rcases List.mem_cons.1 h with rfl | h
        · exact Or.inl ⟨rfl, rfl, rfl, hr⟩
        · exact Or.inr (.egg h)
  | ch t =>
    unfold SwSpec.add PSpec.add at h
    simp only at h
    by_cases hr : r = 0
    · rw [if_pos hr] at h; exact Or.inr h
    · rw [if_neg hr] at h
      cases h with
      | egg h => exact Or.inr (.egg h)
      | ch h =>
        rcases List.mem_cons.1 h with rfl | h
        · exact Or.inl ⟨rfl, rfl, rfl, hr⟩
        · exact Or.inr (.ch h)

theorem resize_len {G : SwSpec} {p n n' : Nat} {pl : Bool} {o : Cur} (h : (G.resize p n).Live p n' pl o) : n' = n := by
  have key : ∀ q n' pl o, (G.resize p n).Live q n' pl o → q = p → n' = n := by
    intro q n' pl o h hq
    cases h with
    | @ch l h =>
      obtain ⟨m, hm, rfl⟩ := List.mem_map.1 (show l ∈ G.P.live.map _ from h)
      by_cases he : m.ptr = p
      · rw [if_pos he]
      · rw [if_neg he] at hq; exact absurd hq he
    | @egg l h =>
      obtain ⟨m, hm, rfl⟩ := List.mem_map.1 (show l ∈ G.E.map _ from h)
      by_cases he : m.ptr = p
      · rw [if_pos he]
      · rw [if_neg he] at hq; exact absurd hq he
  exact key p n' pl o h rfl

/-- A resized block that is still at its place. -/
theorem after_same {G : SwSpec} {k : Cur} {p h n r n' : Nat} {pl : Bool} {o : Cur} (hp : p ≠ 0) (hn : n ≠ 0)
    (hl : (G.after k (.realloc p h n) r).Live p n' pl o) : r = p ∧ n' = n := by
  unfold SwSpec.after at hl
  simp only at hl
  rw [if_neg hp, if_neg hn] at hl
  have key : ∀ {G' : SwSpec} {k' : Cur}, ((G'.del k' p).add k' r n (decide (h ≤ 1))).Live p n' pl o → r = p ∧ n' = n := by
    intro G' k' h1
    rcases add_cases h1 with ⟨h2, h3, _⟩ | h2
    · exact ⟨h2.symm, h3⟩
    · exact absurd h2 del_gone
  split at hl
  · split at hl
    · rename_i hr
      exact ⟨hr, resize_len hl⟩
    · exact key hl
  · split at hl
    · split at hl
      · rename_i hr
        exact ⟨hr, resize_len hl⟩
      · exact key hl
    · exact key hl

/-- What a call on chain `k` does. -/
structure SwCallOk (e : ES) (A : AHeap) (G : SwSpec) (k : Cur) (c : SwCall) (e' : ES) (r : Nat) : Prop where
  kept : ∀ p n pl o n' pl' o', G.Live p n pl o → (G.after k c r).Live p n' pl' o' →
    ∀ x, p ≤ x → x < p + n → x < p + n' → e'.p.w.mem x = e.p.w.mem x
  malloc : ∀ h n, c = .malloc h n → (r ≠ 0 → Aligned h r) ∧ (r = 0 → k = .egg ∧ A.Lacks h (if n = 0 then 1 else n))
  memalign : ∀ h n, c = .memalign h n → (r ≠ 0 → Aligned h r) ∧ (r = 0 → k = .egg ∧ A.Lacks h (if n = 0 then 1 else n))
  calloc : ∀ h n z, c = .calloc h n z → r ≠ 0 ∧ Aligned h r ∧ ∀ i, i < n * z → e'.p.w.mem (r + i) = 0
  realloc : ∀ p h n, c = .realloc p h n → (n ≠ 0 ∨ p = 0) →
    (r ≠ 0 → r ≠ p → Aligned h r) ∧
    (∀ z pl o, G.Live p z pl o → r ≠ 0 → ∀ i, i < min z n → e'.p.w.mem (r + i) = e.p.w.mem (p + i)) ∧
    (r = 0 → (k = .egg ∨ ∃ z pl, G.Live p z pl .egg) ∧ A.Lacks h (if n = 0 then 1 else n))

/-- The pointer determines the block. -/
theorem CInv.live_inj (I : CInv e G a buf Ω A Lb) {p n n' : Nat} {pl pl' : Bool} {o o' : Cur} (h : G.Live p n pl o)
    (h' : G.Live p n' pl' o') : n = n' ∧ pl = pl' ∧ o = o' := by
  have key : ∀ p q n n' pl pl' o o', G.Live p n pl o → G.Live q n' pl' o' → p = q → n = n' ∧ pl = pl' ∧ o = o' := by
    intro p q n n' pl pl' o o' h h' hpq
    cases h with
    | @ch l h1 =>
      cases h' with
      | @ch m h2 =>
        obtain rfl := I.ei.p.live_inj h1 h2 hpq
        exact ⟨rfl, rfl, rfl⟩
      | @egg m h2 => exact absurd hpq.symm (I.ptr_ne h1 h2)
    | @egg l h1 =>
      cases h' with
      | @ch m h2 => exact absurd hpq (I.ptr_ne h2 h1)
      | @egg m h2 =>
        have hn := (I.sub.map Block.ptr).nodup I.ei.h.live.nodup
        have : l = m := List.inj_on_of_nodup_map hn h1 h2 hpq
        subst this
        exact ⟨rfl, rfl, rfl⟩
  exact key p p n n' pl pl' o o' h h' rfl

/-- Every valid call on an existing chain. -/
theorem CInv.exec {C : Config} (hf : C.reallocFactor ≠ 0) (I : CInv e G a buf Ω A Lb) {k : Cur} (hk : k.Ok e) {c : SwCall}
    (hv : SwCallValid G k c) :
    (curExec C e k c = .ub ∧ ((k ≠ .egg ∧ ∃ b n, c.req = some (b, n) ∧ ¬ HasMem e.p (reqSize b n)) ∨
      (k = .egg ∧ ∃ h n z, c = .calloc h n z ∧ A.Lacks h (if n * z = 0 then 1 else n * z)))) ∨
    ∃ e' r Ω' A' Lb', curExec C e k c = .ok (e', r) ∧ CInv e' (G.after k c r) a buf Ω' A' Lb' ∧
      e'.p.chs.length = e.p.chs.length ∧ SwCallOk e A G k c e' r := by
  cases c with
  | malloc h n =>
    rcases I.memalign (C := C) hf hk hv.1 hv.2 with ⟨h0, h1, e1⟩ | ⟨e', r, Ω', A', Lb', e1, I', k', len, al, hz⟩
    · exact Or.inl ⟨e1, Or.inl ⟨h0, _, _, rfl, h1⟩⟩
    · refine Or.inr ⟨e', r, Ω', A', Lb', e1, I', len, ⟨?_, ?_, ?_, ?_, ?_⟩⟩
      · exact fun p n pl o _ _ _ hl _ x x1 x2 _ => k' p n pl o hl trivial x x1 x2
      · rintro _ _ ⟨⟩; exact ⟨al, hz⟩
      · rintro _ _ ⟨⟩
      · rintro _ _ _ ⟨⟩
      · rintro _ _ _ ⟨⟩
  | memalign h n =>
    rcases I.memalign (C := C) hf hk hv.1 hv.2 with ⟨h0, h1, e1⟩ | ⟨e', r, Ω', A', Lb', e1, I', k', len, al, hz⟩
    · exact Or.inl ⟨e1, Or.inl ⟨h0, _, _, rfl, h1⟩⟩
    · refine Or.inr ⟨e', r, Ω', A', Lb', e1, I', len, ⟨?_, ?_, ?_, ?_, ?_⟩⟩
      · exact fun p n pl o _ _ _ hl _ x x1 x2 _ => k' p n pl o hl trivial x x1 x2
      · rintro _ _ ⟨⟩
      · rintro _ _ ⟨⟩; exact ⟨al, hz⟩
      · rintro _ _ _ ⟨⟩
      · rintro _ _ _ ⟨⟩
  | calloc h n z =>
    rcases I.calloc (C := C) hf hk hv.1 hv.2.1 hv.2.2 with ⟨h0, h1, e1⟩ | ⟨e', r, Ω', A', Lb', e1, I', k', len, hr, al, hz⟩
    · refine Or.inl ⟨e1, ?_⟩
      by_cases hke : k = .egg
      · exact Or.inr ⟨hke, _, _, _, rfl, h1 hke⟩
      · exact Or.inl ⟨hke, _, _, rfl, h0 hke⟩
    · refine Or.inr ⟨e', r, Ω', A', Lb', e1, I', len, ⟨?_, ?_, ?_, ?_, ?_⟩⟩
      · exact fun p n pl o _ _ _ hl _ x x1 x2 _ => k' p n pl o hl trivial x x1 x2
      · rintro _ _ ⟨⟩
      · rintro _ _ ⟨⟩
      · rintro _ _ _ ⟨⟩; exact ⟨hr, al, hz⟩
      · rintro _ _ _ ⟨⟩
  | free p =>
    right
    obtain ⟨e', Ω', A', Lb', e1, I', k', len⟩ := I.free (C := C) hf hk hv
    refine ⟨e', 0, Ω', A', Lb', ?_, I', len, ⟨?_, ?_, ?_, ?_, ?_⟩⟩
    · unfold curExec; simp only; rw [e1]; rfl
    · intro q n pl o n' pl' o' hl hl' x x1 x2 _
      refine k' q n pl o hl ?_ x x1 x2
      rintro rfl
      exact del_gone hl'
    · rintro _ _ ⟨⟩
    · rintro _ _ ⟨⟩
    · rintro _ _ _ ⟨⟩
    · rintro _ _ _ ⟨⟩
  | realloc p h n =>
    obtain ⟨hb, hsz, hv⟩ := hv
    by_cases hp : p = 0
    · subst hp
      have hex : curExec C e k (.realloc 0 h n) = curMemalign C e k h n := by
        unfold curExec curRealloc
        simp only [if_true]
        rw [curMalloc_eq]
      rw [hex]
      rcases I.memalign (C := C) hf hk hb hsz with ⟨h0, h1, e1⟩ | ⟨e', r, Ω', A', Lb', e1, I', k', len, al, hz⟩
      · exact Or.inl ⟨e1, Or.inl ⟨h0, _, _, rfl, h1⟩⟩
      · refine Or.inr ⟨e', r, Ω', A', Lb', e1, ?_, len, ⟨?_, ?_, ?_, ?_, ?_⟩⟩
        · unfold SwSpec.after; simp only [if_true]; exact I'
        · exact fun p n pl o _ _ _ hl _ x x1 x2 _ => k' p n pl o hl trivial x x1 x2
        · rintro _ _ ⟨⟩
        · rintro _ _ ⟨⟩
        · rintro _ _ _ ⟨⟩
        · rintro _ _ _ ⟨⟩ _
          exact ⟨fun hr _ => al hr, fun z pl o hl => absurd rfl (I.ptr hl), fun hr => ⟨Or.inl (hz hr).1, (hz hr).2⟩⟩
    obtain ⟨z, pl, o, hl, hs⟩ := hv.resolve_left hp
    by_cases hn : n = 0
    · subst hn
      right
      obtain ⟨e', Ω', A', Lb', e1, I', k', len⟩ := I.free (C := C) hf hk (Or.inr ⟨_, _, _, hl⟩)
      have ha : ∀ r, G.after k (.realloc p h 0) r = (G.drain k).del k p := by
        intro r
        unfold SwSpec.after; simp only [if_true]; rw [if_neg hp]
      refine ⟨e', 0, Ω', A', Lb', ?_, by rw [ha]; exact I', len, ⟨?_, ?_, ?_, ?_, ?_⟩⟩
      · unfold curExec curRealloc; simp only [if_true]; rw [if_neg hp, e1]; rfl
      · intro q n pl o n' pl' o' hl hl' x x1 x2 _
        refine k' q n pl o hl ?_ x x1 x2
        rintro rfl
        rw [ha] at hl'
        exact del_gone hl'
      · rintro _ _ ⟨⟩
      · rintro _ _ ⟨⟩
      · rintro _ _ _ ⟨⟩
      · rintro _ _ _ ⟨⟩ h
        rcases h with h | h
        · exact absurd rfl h
        · exact absurd h hp
    · rcases I.realloc (C := C) hf hk hl hn hb hsz (hs.resolve_left hn) with ⟨h0, _, h1, e1⟩ |
        ⟨e', r, Ω', A', Lb', e1, I', k', len, al, cp, hz, _⟩
      · exact Or.inl ⟨e1, Or.inl ⟨h0, _, _, rfl, h1⟩⟩
      · refine Or.inr ⟨e', r, Ω', A', Lb', e1, I', len, ⟨?_, ?_, ?_, ?_, ?_⟩⟩
        · intro q n1 pl1 o1 n' pl' o' hl1 hl' x x1 x2 x3
          by_cases hq : q = p
          · subst hq
            obtain ⟨rfl, rfl, rfl⟩ := I.live_inj hl1 hl
            obtain ⟨rfl, rfl⟩ := after_same hp hn hl'
            have := cp hp (x - r) (by omega)
            rwa [show r + (x - r) = x by omega] at this
          · exact k' q n1 pl1 o1 hl1 hq x x1 x2
        · rintro _ _ ⟨⟩
        · rintro _ _ ⟨⟩
        · rintro _ _ _ ⟨⟩
        · rintro _ _ _ ⟨⟩ _
          refine ⟨al, fun z' pl' o' hl' hr => ?_, fun hr => ⟨?_, ?_⟩⟩
          · obtain ⟨rfl, rfl, rfl⟩ := I.live_inj hl' hl
            exact cp hr
          · rcases (hz hr).1 with h | h
            · subst h; exact Or.inr ⟨z, pl, hl⟩
            · exact Or.inl h
          · rw [if_neg hn]; exact (hz hr).2

theorem SwState.next_egg {s : SwState} {u : Nat} : s.next u = .egg ↔ s.cur u = .egg := by
  unfold SwState.next
  cases s.cur u <;> simp

/-- Every valid step. -/
theorem CInv.swStep {C : Config} (hf : C.reallocFactor ≠ 0) {s : SwState} (I : CInv s.e G a buf Ω A Lb)
    (hc : ∀ u i, s.cur u = .ch i → i < s.e.p.chs.length) {op : SwOp} (hv : SwValid s G op) :
    (¬ SwMem s op ∧ swExec C s op = .ub) ∨
    ∃ s' r Ω' A' Lb', swExec C s op = .ok (s', r) ∧ CInv s'.e (G.swAfter s op r) a buf Ω' A' Lb' ∧ SwOk s G op s' r ∧
      s.e.p.chs.length ≤ s'.e.p.chs.length ∧ ∀ u i, s'.cur u = .ch i → i < s'.e.p.chs.length := by
  cases op with
  | set u c =>
    right
    refine ⟨_, 0, Ω, A, Lb, rfl, I, ⟨fun _ _ _ _ _ _ _ _ _ _ _ _ _ _ => rfl, ?_, ?_, ?_, ?_, fun v => rfl, rfl⟩, Nat.le_refl _, ?_⟩
    · rintro _ _ _ _ ⟨⟩
    · rintro _ _ _ _ ⟨⟩
    · rintro _ _ _ _ _ ⟨⟩
    · rintro _ _ _ _ _ ⟨⟩
    · intro v i h
      simp only [setDefault] at h ⊢
      split at h
      · exact hv i h
      · exact hc v i h
  | write x v =>
    right
    obtain ⟨p, n, pl, o, hl, x1, x2⟩ := hv
    obtain ⟨Ω', I', k'⟩ := I.storeD (m' := fun y => if y = x then v else s.e.p.w.mem y) hl (fun y hy => by
      exact if_neg (fun h : y = x => hy (by rw [h]; exact ⟨x1, x2⟩)))
    refine ⟨_, 0, Ω', A, Lb, rfl, I', ⟨fun h => absurd rfl (h x v), ?_, ?_, ?_, ?_, fun v => rfl, rfl⟩, Nat.le_refl _, hc⟩
    · rintro _ _ _ _ ⟨⟩
    · rintro _ _ _ _ ⟨⟩
    · rintro _ _ _ _ _ ⟨⟩
    · rintro _ _ _ _ _ ⟨⟩
  | call u h0 c =>
    obtain ⟨hb, hsz, hv⟩ := hv
    unfold swExec
    simp only
    rcases I.localChain (C := C) hc u hb hsz with ⟨g1, g2, g3⟩ | ⟨s1, Ω1, A1, L1, e1, I1, k1, len1, ok1, same, more, cu, cv, cs, hsrc⟩
    · left
      refine ⟨fun h => I.lacks g3 ?_ (h.1 g1), by rw [g2]; rfl⟩
      split <;> omega
    rw [e1, Outcome.ok_bind]
    simp only
    rcases I1.exec (C := C) hf ok1 hv with ⟨e2, hno⟩ | ⟨e', r, Ω', A', Lb', e2, I', len2, k2⟩
    · left
      refine ⟨fun h => ?_, by rw [e2]; rfl⟩
      rcases hno with ⟨h1, b, n, h2, h3⟩ | ⟨h1, b, n, z, h2, h3⟩
      · refine h3 ?_
        have := h.2.1 b n h2 h1
        unfold HasMem at this ⊢
        rw [hsrc]
        exact this
      · have hne : s.cur u ≠ .none := by rw [SwState.next_egg.1 h1]; rintro ⟨⟩
        obtain ⟨rfl, rfl, rfl, rfl⟩ := same hne
        refine I1.lacks h3 ?_ (h.2.2 b n z h2 h1)
        subst h2
        exact hv.2.2.small
    · right
      have hfail : ∀ {b n : Nat}, s.cur u ≠ .none → A1.Lacks b n → n + (if 1 < b then b else 0) + 16 < W64 → ¬ EggHas s b n := by
        intro b n hne hl hs
        obtain ⟨rfl, rfl, rfl, rfl⟩ := same hne
        exact I1.lacks hl hs
      refine ⟨⟨e', s1.cur⟩, r, Ω', A', Lb', by rw [e2]; rfl, I', ⟨?_, ?_, ?_, ?_, ?_, ?_, ?_⟩, by simp only; omega, ?_⟩
      · intro _ p n pl o n' pl' o' hl hl' x x1 x2 x3
        exact (k2.kept p n pl o n' pl' o' hl hl' x x1 x2 x3).trans (k1 p n pl o hl trivial x x1 x2)
      · rintro _ _ h n ⟨⟩
        obtain ⟨h1, h2⟩ := k2.malloc h n rfl
        refine ⟨h1, fun hr => ?_⟩
        have he := SwState.next_egg.1 (h2 hr).1
        exact ⟨he, hfail (by rw [he]; rintro ⟨⟩) (h2 hr).2 hv.2.small⟩
      · rintro _ _ h n ⟨⟩
        obtain ⟨h1, h2⟩ := k2.memalign h n rfl
        refine ⟨h1, fun hr => ?_⟩
        have he := SwState.next_egg.1 (h2 hr).1
        exact ⟨he, hfail (by rw [he]; rintro ⟨⟩) (h2 hr).2 hv.2.small⟩
      · rintro _ _ h n z ⟨⟩
        exact k2.calloc h n z rfl
      · rintro _ _ p h n ⟨⟩ hn
        obtain ⟨h1, h2, h3⟩ := k2.realloc p h n rfl hn
        refine ⟨h1, fun z pl o hl hr i hi => ?_, fun hr => ⟨?_, fun hne => hfail hne (h3 hr).2 hv.2.1.small⟩⟩
        · rw [h2 z pl o hl hr i hi]
          exact k1 p z pl o hl trivial _ (by omega) (by omega)
        · rcases (h3 hr).1 with h | h
          · exact Or.inl (SwState.next_egg.1 h)
          · exact Or.inr h
      · intro v
        simp only
        by_cases hvu : v = u
        · rw [if_pos hvu, hvu]; exact cu
        · rw [if_neg hvu]; exact cv v hvu
      · show e'.p.chs.length = _
        simp only
        rw [len2]
        by_cases hcu : s.cur u = .none
        · rw [if_pos hcu]; exact more hcu
        · rw [if_neg hcu, (same hcu).1]; rfl
      · intro v i h
        show i < e'.p.chs.length
        rw [len2]
        exact cs v i h

/-- The invariant of the reachable states. -/
theorem SwReach.inv {C : Config} (hf : C.reallocFactor ≠ 0) {s : SwState} (R : SwReach C s G) :
    ∃ a buf Ω A Lb, CInv s.e G a buf Ω A Lb ∧ ∀ u i, s.cur u = .ch i → i < s.e.p.chs.length := by
  induction R with
  | @init w a buf h e S hb hs ei =>
    rcases eggInit_full (C := C) S hb hs with ⟨e1, _⟩ | ⟨e', Ω, A, Lb, e1, I, h1, h2, h3, h4, h5, h6, h7, h8, _⟩
    · rw [ei] at e1; cases e1
    · rw [ei] at e1
      cases e1
      exact ⟨a, buf, Ω, A, Lb, ⟨I False, h4, h5, h6, h7, S.above.2, h8, List.nil_sublist _, by simp⟩, by rintro u i ⟨⟩⟩
  | @step s s' G op r _ hv ex ih =>
    obtain ⟨a, buf, Ω, A, Lb, I, hc⟩ := ih
    rcases I.swStep hf hc hv with ⟨_, e1⟩ | ⟨s2, r2, Ω', A', Lb', e1, I', _, _, hc'⟩
    · rw [ex] at e1; cases e1
    · rw [ex] at e1
      obtain ⟨rfl, rfl⟩ := Prod.mk.inj (Outcome.ok.inj e1)
      exact ⟨a, buf, Ω', A', Lb', I', hc'⟩

end MpcAlloc
