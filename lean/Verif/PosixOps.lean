import Verif.PosixInv

/-
Effect of the calls of the POSIX level on the invariant of the process.
-/

namespace MpcAlloc

variable {Ω : Env}

theorem PS.put_put (s : PS) (t : Nat) (u v : CS Light) : (s.put t u).put t v = s.put t v := by
  unfold PS.put; simp

theorem PS.put_get {s : PS} {t : Nat} (u : CS Light) (h : t < s.chs.length) : (s.put t u).chs[t]? = some u.c := by
  unfold PS.put; simp [h]

theorem PS.put_len (s : PS) (t : Nat) (u : CS Light) : (s.put t u).chs.length = s.chs.length := by
  unfold PS.put; simp

theorem Keeps.trans {s s1 s2 : PS} {G G1 : PSpec} {Z Z1 Z2 : PBlock → Prop} (h1 : Keeps s s1 G Z1) (h2 : Keeps s1 s2 G1 Z2)
    (h : ∀ l ∈ G.live, Z l → Z1 l ∧ l ∈ G1.live ∧ Z2 l) : Keeps s s2 G Z := by
  intro l hl hz x hx
  obtain ⟨a, b, c⟩ := h l hl hz
  rw [h2 l b c x hx, h1 l hl a x hx]

theorem posixMalloc_eq (C : Config) (b : Nat) (s : PS) (t n : Nat) : posixMalloc C b s t n = posixMemalign C s t b n := rfl

/-- Allocation by a thread. -/
theorem memalign_op {C : Config} {cl : Prop} {s : PS} {G : PSpec} (I : PInv Ω cl s G) {t b n : Nat} (ht : t < s.chs.length)
    (hb : GoodBound b) (hsz : PSize (reqSize b n)) (hcl : cl → CleanSize (reqSize b n)) :
    (¬ HasMem s (reqSize b n) ∧ posixMemalign C s t b n = .ub) ∨
    ∃ s' r, posixMemalign C s t b n = .ok (s', r) ∧ r ≠ 0 ∧ (1 < b → b ∣ r) ∧ (b ≤ 1 → 16 ∣ r) ∧
      PInv Ω cl s' ((G.drain t).add t r n (decide (b ≤ 1))) ∧ Keeps s s' G (fun _ => True) ∧
      s'.chs.length = s.chs.length := by
  have hc := List.getElem?_eq_getElem ht
  obtain ⟨u, e1, I1, k1, _, os1⟩ := purge_eff (C := C) I hc
  have hc1 := PS.put_get u ht
  rcases alloc_eff (C := C) I1 hc1 hb (show (if n = 0 then 1 else n) ≠ 0 by split <;> omega) (reqSize_eq b n).symm hsz hcl with
    ⟨h, e2⟩ | ⟨v, r, e2, hr, _, a1, a2, k2, I2⟩
  · left
    refine ⟨fun h' => h (os1.fresh h'), ?_⟩
    unfold posixMemalign
    rw [PS.loc_eq hc, Outcome.ok_bind, e1, Outcome.ok_bind]
    have e2' : allocAlign (lightSource C) u b (if n = 0 then 1 else n) = .ub := e2
    rw [e2']; rfl
  · right
    refine ⟨s.put t v, r, ?_, hr, a1, a2, ?_, ?_, PS.put_len s t v⟩
    · unfold posixMemalign
      rw [PS.loc_eq hc, Outcome.ok_bind, e1, Outcome.ok_bind]
      have e2' : allocAlign (lightSource C) u b (if n = 0 then 1 else n) = .ok (v, r) := e2
      rw [e2']; rfl
    · have := I2 n (by split <;> omega)
      rwa [PS.put_put] at this
    · rw [PS.put_put] at k2
      exact k1.trans k2 (fun l hl _ => ⟨trivial, hl, trivial⟩)

/-- Live blocks have a pointer. -/
theorem PInv.ptr {cl : Prop} {s : PS} {G : PSpec} (I : PInv Ω cl s G) {l : PBlock} (hl : l ∈ G.live) : l.ptr ≠ 0 := by
  obtain ⟨_, _, _, _, _, _, _, _, _, _, h⟩ := lookup_eff I hl
  exact h.2

theorem PInv.live_inj {cl : Prop} {s : PS} {G : PSpec} (I : PInv Ω cl s G) {l m : PBlock} (hl : l ∈ G.live) (hm : m ∈ G.live)
    (h : l.ptr = m.ptr) : l = m := by
  obtain ⟨_, _, _, _, K⟩ := I
  exact ptr_eq_of_nodup (List.pairwise_append.1 K.nodup).1 hl hm h

/-- Release by a thread. -/
theorem free_op {C : Config} {cl : Prop} {s : PS} {G : PSpec} (I : PInv Ω cl s G) {t p : Nat} (ht : t < s.chs.length)
    (hp : p = 0 ∨ ∃ l ∈ G.live, l.ptr = p) :
    ∃ s', posixFree C s t p = .ok s' ∧ PInv Ω cl s' ((G.drain t).del t p) ∧ Keeps s s' G (fun l => l.ptr ≠ p) ∧
      s'.chs.length = s.chs.length := by
  have hc := List.getElem?_eq_getElem ht
  obtain ⟨u, e1, I1, k1, ad, _⟩ := purge_eff (C := C) I hc
  have hc1 := PS.put_get u ht
  unfold posixFree
  rw [PS.loc_eq hc, Outcome.ok_bind, e1, Outcome.ok_bind]
  simp only
  rcases hp with rfl | ⟨l, hl, rfl⟩
  · rw [if_pos rfl]
    refine ⟨s.put t u, rfl, ?_, fun l hl _ => k1 l hl trivial,
      PS.put_len s t u⟩
    have : (G.drain t).del t 0 = G.drain t := by
      unfold PSpec.del
      have h1 : (G.drain t).live.filter (fun l => decide (l.ptr ≠ 0)) = (G.drain t).live := by
        rw [List.filter_eq_self]
        intro l hl
        simpa using I.ptr hl
      have h2 : (G.drain t).live.filter (fun l => decide (l.ptr = 0 ∧ l.owner ≠ t)) = [] := by
        rw [List.filter_eq_nil_iff]
        intro l hl
        have := I.ptr (show l ∈ G.live from hl)
        simp [this]
      rw [h1, h2]; rfl
    rw [this]; exact I1
  · have hl1 : l ∈ (G.drain t).live := hl
    obtain ⟨R, b, c, e2, hb, e3, hcz, hc2, e4, hts, I2, hpz⟩ := lookup_eff I1 hl1
    rw [if_neg hpz, e2, Outcome.ok_bind]
    simp only
    rw [if_neg hb]
    have e3' : readLE (s.put t u).w.mem (b + 16) 8 = c.addr := e3
    rw [e3', if_neg hcz]
    have e4' : PS.chainAt { w := { (s.put t u).w with regs := R }, chs := (s.put t u).chs } c.addr = .ok l.owner := e4
    rw [e4', Outcome.ok_bind]
    have hc3 : ((s.put t u).setRegs R).chs[l.owner]? = some c := hc2
    have e5 := PS.loc_eq hc3
    have e5' : PS.loc { w := { (s.put t u).w with regs := R }, chs := (s.put t u).chs } l.owner =
      .ok ⟨((s.put t u).setRegs R).w, c⟩ := e5
    rw [e5', Outcome.ok_bind]
    simp only
    by_cases ho : l.owner = t
    · have hcu : c = u.c := by
        rw [ho] at hc2
        exact Option.some.inj (hc2.symm.trans hc1)
      rw [if_pos (Or.inr (by rw [hcu]))]
      obtain ⟨v, e6, I3, k3⟩ := free_eff (C := C) I2 hl1 hc3
      rw [e6, Outcome.ok_bind]
      rw [ho] at I3 k3 ⊢
      exact ⟨_, rfl, I3, k1.trans k3 (fun m hm hz => ⟨trivial, hm, hz⟩),
        (PS.put_len _ _ _).trans (PS.put_len s t u)⟩
    · have hcu : c.addr ≠ u.c.addr := by
        intro h
        obtain ⟨H, L, P, B, K⟩ := I1
        exact ho (B.addrs _ _ _ _ hc2 hc1 h)
      rw [if_neg (by rw [hts]; simp [hcu])]
      obtain ⟨v, e6, I3, k3⟩ := register_eff I2 hl1 hc3 ho
      rw [e6, Outcome.ok_bind]
      exact ⟨_, rfl, I3, k1.trans k3 (fun m hm hz => ⟨trivial, hm, hz⟩),
        (PS.put_len _ _ _).trans (PS.put_len s t u)⟩

/-- Size of a live block: up to the end of its chunk. -/
theorem getSize_op {cl : Prop} {s : PS} {G : PSpec} (I : PInv Ω cl s G) {l : PBlock} (hl : l ∈ G.live) :
    ∃ z, posixGetSize s.w.mem l.ptr = .ok z ∧ l.len ≤ z ∧
      ∀ m ∈ G.live, m.ptr ≠ l.ptr → m.ptr + m.len ≤ l.ptr ∨ l.ptr + z ≤ m.ptr := by
  obtain ⟨H, L, P, B, K⟩ := I
  obtain ⟨g, c, hg, hc, hq, hp, hfit, _⟩ := K.live l hl
  obtain ⟨cc, hcc, T⟩ := B.getH hg
  have W := T.ch.wf
  have hge := W.uptr_ge c
  have hroom := T.ch.room c hc
  have hr := W.has_range hc.1
  obtain ⟨g1, g2, g3⟩ := getChunkUnpadded_used W T.ch.mem hc
  have g1' : getChunkUnpadded s.w.mem l.ptr = .ok (c.addr + 15) := by rw [← hp]; exact g1
  have g3' : hSize s.w.mem (vLarge (c.addr + 15)) = c.size := g3
  refine ⟨c.addr + c.size - l.ptr, ?_, by omega, ?_⟩
  · unfold posixGetSize
    rw [if_neg (by omega), g1', Outcome.ok_bind, if_neg (by omega), Outcome.pure_eq]
    unfold getUsableSize
    rw [g3', sub64_eq (a := l.ptr) (by omega) (by omega), sub64_eq (a := c.size) (by omega) (by omega)]
    congr 1
    unfold sub64 add64
    omega
  · intro m hm hne
    obtain ⟨g', c', hg', hc', hq', hp', hfit', _⟩ := K.live m hm
    obtain ⟨cc', hcc', T'⟩ := B.getH hg'
    have := T'.ch.wf.uptr_ge c'
    have hd := B.disj hg' hg hc' hc (by
      by_contra h
      rw [not_or, not_not, not_not] at h
      exact hne (by rw [← hp', ← hp, h.2]))
    omega

theorem add_live {G : PSpec} {t r n : Nat} {pl : Bool} (h : r ≠ 0) {m : PBlock} :
    m ∈ (G.add t r n pl).live ↔ m = ⟨t, r, n, pl⟩ ∨ m ∈ G.live := by
  unfold PSpec.add; rw [if_neg h]; simp

theorem add_pend {G : PSpec} {t r n : Nat} {pl : Bool} : (G.add t r n pl).pend = G.pend := by
  unfold PSpec.add; split <;> rfl

/-- Adding a block and freeing another one commute. -/
theorem add_drain_del {G : PSpec} {t r n p : Nat} {pl : Bool} (hr : r ≠ 0) (hne : r ≠ p) :
    ((((G.drain t).add t r n pl)).drain t).del t p = ((G.drain t).del t p).add t r n pl := by
  unfold PSpec.add
  rw [if_neg hr, if_neg hr]
  unfold PSpec.del PSpec.drain
  simp [hne]

/-- Resize of a block of another thread. -/
theorem reallocInter_op {C : Config} {cl : Prop} {s : PS} {G : PSpec} (I : PInv Ω cl s G) {t hook n : Nat} {l : PBlock}
    (ht : t < s.chs.length) (hl : l ∈ G.live) (hn : n ≠ 0) (hb : GoodBound hook) (hsz : PSize (reqSize hook n))
    (hcl : cl → CleanSize (reqSize hook n)) :
    (¬ HasMem s (reqSize hook n) ∧ posixReallocInter C hook s t l.ptr n = .ub) ∨
    ∃ s' r, posixReallocInter C hook s t l.ptr n = .ok (s', r) ∧ r ≠ 0 ∧ r ≠ l.ptr ∧ (1 < hook → hook ∣ r) ∧
      (hook ≤ 1 → 16 ∣ r) ∧
      PInv Ω cl s' (((G.drain t).del t l.ptr).add t r n (decide (hook ≤ 1))) ∧ Keeps s s' G (fun m => m.ptr ≠ l.ptr) ∧
      (∀ i, i < min l.len n → s'.w.mem (r + i) = s.w.mem (l.ptr + i)) ∧ s'.chs.length = s.chs.length := by
  unfold posixReallocInter
  rw [if_pos hn, posixMalloc_eq]
  rcases memalign_op (C := C) I ht hb hsz hcl with ⟨h1, e1⟩ | ⟨s1, r, e1, hr, a1, a2, I1, k1, len1⟩
  · left
    refine ⟨h1, ?_⟩
    rw [e1]; rfl
  right
  have hl1 : l ∈ ((G.drain t).add t r n (decide (hook ≤ 1))).live := (add_live hr).2 (Or.inr hl)
  have hr1 : (⟨t, r, n, decide (hook ≤ 1)⟩ : PBlock) ∈ ((G.drain t).add t r n (decide (hook ≤ 1))).live :=
    (add_live hr).2 (Or.inl rfl)
  have hpz := I.ptr hl
  have hrp : r ≠ l.ptr := by
    intro h
    obtain ⟨_, _, _, _, K⟩ := I1
    have hnd := K.nodup
    unfold PSpec.add at hnd
    rw [if_neg hr] at hnd
    exact (List.pairwise_cons.1 hnd).1 l (List.mem_append_left _ hl) h
  obtain ⟨z, e2, hz1, hz2⟩ := getSize_op I1 hl1
  have hdj := hz2 _ hr1 hrp
  simp only at hdj
  have hcnt : (if n < z then n else z) = min n z := by split <;> omega
  obtain ⟨m2, e3, cp, f2⟩ := memCopy_ok (m := s1.w.mem) (dst := r) (src := l.ptr) (n := min n z) (by omega)
  obtain ⟨I2, k2⟩ := store_eff (m' := m2) I1 hr1 (fun x hx => f2 x (by unfold PBlock.Byte at hx; simp only at hx; omega))
  obtain ⟨s3, e4, I3, k3, len3⟩ := free_op (C := C) I2 (t := t) (p := l.ptr) (show t < s1.chs.length by omega)
    (Or.inr ⟨l, hl1, rfl⟩)
  refine ⟨s3, r, ?_, hr, hrp, a1, a2, ?_, ?_, ?_, ?_⟩
  · rw [e1, Outcome.ok_bind]
    simp only
    rw [if_pos ⟨hr, hpz⟩, e2, Outcome.ok_bind, hcnt, e3, Outcome.ok_bind, Outcome.pure_eq, Outcome.ok_bind, if_pos hpz, e4,
      Outcome.ok_bind]
    rfl
  · rw [add_drain_del hr hrp] at I3; exact I3
  · intro m hm hz x hx
    have hm1 : m ∈ ((G.drain t).add t r n (decide (hook ≤ 1))).live := (add_live hr).2 (Or.inr hm)
    have hmr : m.ptr ≠ r := by
      intro h
      have := I1.live_inj hm1 hr1 h
      obtain ⟨_, _, _, _, K⟩ := I1
      have hnd := K.nodup
      unfold PSpec.add at hnd
      rw [if_neg hr] at hnd
      exact (List.pairwise_cons.1 hnd).1 m (List.mem_append_left _ hm) h.symm
    rw [k3 m hm1 hz x hx, k2 m hm1 hmr x hx, k1 m hm trivial x hx]
  · intro i hi
    have hb : (⟨t, r, n, decide (hook ≤ 1)⟩ : PBlock).Byte (r + i) := ⟨by simp only; omega, by simp only; omega⟩
    rw [k3 _ hr1 hrp _ hb]
    show m2 (r + i) = _
    rw [cp i (by omega)]
    exact k1 l hl trivial _ ⟨by omega, by omega⟩
  · rw [len3]; exact len1

theorem mine_iff {cl : Prop} {s : PS} {G : PSpec} (I : PInv Ω cl s G) {l : PBlock} (hl : l ∈ G.live) (t : Nat) :
    G.mine t l.ptr = decide (l.owner = t) := by
  unfold PSpec.mine
  by_cases h : l.owner = t
  · rw [decide_eq_true h, List.any_eq_true]
    exact ⟨l, hl, by simp [h]⟩
  · rw [decide_eq_false h, List.any_eq_false]
    intro m hm h'
    simp only [decide_eq_true_eq] at h'
    have := I.live_inj hm hl h'.1
    rw [this] at h'
    exact h h'.2

/-- Resize. -/
theorem realloc_op {C : Config} {cl : Prop} {s : PS} {G : PSpec} (I : PInv Ω cl s G) {t hook n : Nat} {l : PBlock}
    (ht : t < s.chs.length) (hl : l ∈ G.live) (hn : n ≠ 0) (hf : C.reallocFactor ≠ 0) (hb : GoodBound hook)
    (hsz : PSize (reqSize hook n)) (hcl : cl → CleanSize (reqSize hook n))
    (hsafe : l.owner ≠ t ∨ l.plain = true ∨ n ≤ l.len) :
    (¬ HasMem s (reqSize hook n) ∧ posixRealloc C hook s t l.ptr n = .ub) ∨
    ∃ s' r, posixRealloc C hook s t l.ptr n = .ok (s', r) ∧ r ≠ 0 ∧
      PInv Ω cl s' (G.after (.realloc t l.ptr hook n) r) ∧ Keeps s s' G (fun m => m.ptr ≠ l.ptr) ∧
      (r ≠ l.ptr → (1 < hook → hook ∣ r) ∧ (hook ≤ 1 → 16 ∣ r)) ∧
      (∀ i, i < min l.len n → s'.w.mem (r + i) = s.w.mem (l.ptr + i)) ∧ s'.chs.length = s.chs.length := by
  have hc := List.getElem?_eq_getElem ht
  obtain ⟨R, b, c, e2, hb0, e3, hcz, hc2, e4, hts, I2, hpz⟩ := lookup_eff I hl
  have hreq : alignedSize hook n = reqSize hook n := by rw [reqSize_eq, if_neg hn]
  unfold posixRealloc
  rw [if_neg hpz, if_neg hn, PS.loc_eq hc, Outcome.ok_bind, e2, Outcome.ok_bind]
  simp only
  rw [if_neg hb0, e3, if_neg hcz]
  have e4' : PS.chainAt { w := { s.w with regs := R }, chs := s.chs } c.addr = .ok l.owner := e4
  rw [e4', Outcome.ok_bind]
  have hc3 : (s.setRegs R).chs[l.owner]? = some c := hc2
  have e5 := PS.loc_eq hc3
  have e5' : PS.loc { w := { s.w with regs := R }, chs := s.chs } l.owner = .ok ⟨(s.setRegs R).w, c⟩ := e5
  rw [e5', Outcome.ok_bind]
  simp only
  have haft : ∀ r, G.after (.realloc t l.ptr hook n) r = if decide (l.owner = t) = true then
      (if r = l.ptr then { G with live := G.live.map (fun m => if m.ptr = l.ptr then { m with len := n } else m) }
      else (G.del t l.ptr).add t r n (decide (hook ≤ 1)))
      else ((G.drain t).del t l.ptr).add t r n (decide (hook ≤ 1)) := by
    intro r
    unfold PSpec.after
    simp only
    rw [if_neg hpz, if_neg hn, mine_iff I hl]
  by_cases ho : l.owner = t
  · have hcu : c = s.chs[t] := by
      rw [ho] at hc2
      exact Option.some.inj (hc2.symm.trans hc)
    rw [if_pos (Or.inl (by rw [hcu]))]
    rcases realloc_eff (C := C) I2 hl hc3 hf hb hn hreq hsz hcl (hsafe.resolve_left (not_not.2 ho)) with
      ⟨h, e⟩ | ⟨e, I3⟩ | ⟨u, r, e, hr, hrp, a1, a2, I3, k3, cp⟩
    · left
      refine ⟨h, ?_⟩
      rw [e]; rfl
    · right
      refine ⟨(s.setRegs R), l.ptr, ?_, hpz, ?_, fun _ _ _ _ _ => rfl, fun h => absurd rfl h, fun _ _ => rfl, rfl⟩
      · rw [e, Outcome.ok_bind]
        simp only
        have := PS.put_self hc3
        unfold PS.put at this ⊢
        exact congrArg (fun z => Outcome.ok (z, l.ptr)) this
      · rw [haft, decide_eq_true ho, if_pos rfl, if_pos rfl]; exact I3
    · right
      refine ⟨(s.setRegs R).put l.owner u, r, ?_, hr, ?_, k3, fun _ => ⟨a1, a2⟩, cp, PS.put_len _ _ _⟩
      · rw [e, Outcome.ok_bind]; rfl
      · rw [haft, decide_eq_true ho, if_pos rfl, if_neg hrp]
        rw [ho] at I3 ⊢; exact I3
  · have hcu : c.addr ≠ s.chs[t].addr := by
      intro h
      obtain ⟨H, L, P, B, K⟩ := I
      exact ho (B.addrs _ _ _ _ hc2 hc h)
    rw [if_neg (by rw [hts]; simp [hcu])]
    rcases reallocInter_op (C := C) I2 (t := t) ht hl hn hb hsz hcl with ⟨h, e⟩ | ⟨s', r, e, hr, hrp, a1, a2, I3, k3, cp, len⟩
    · left
      exact ⟨h, e⟩
    · right
      exact ⟨s', r, e, hr, by rw [haft, decide_eq_false ho, if_neg (by simp)]; exact I3, k3, fun _ => ⟨a1, a2⟩, cp, len⟩

/-- Zeroed allocation. -/
theorem calloc_op {C : Config} {cl : Prop} {s : PS} {G : PSpec} (I : PInv Ω cl s G) {t b n k : Nat} (ht : t < s.chs.length)
    (hb : GoodBound b) (hlt : n * k < W64) (hsz : PSize (reqSize b (n * k))) (hcl : cl → CleanSize (reqSize b (n * k))) :
    (¬ HasMem s (reqSize b (n * k)) ∧ posixCalloc C b s t n k = .ub) ∨
    ∃ s' r, posixCalloc C b s t n k = .ok (s', r) ∧ r ≠ 0 ∧ (1 < b → b ∣ r) ∧ (b ≤ 1 → 16 ∣ r) ∧
      PInv Ω cl s' ((G.drain t).add t r (n * k) (decide (b ≤ 1))) ∧ Keeps s s' G (fun _ => True) ∧
      (∀ i, i < n * k → s'.w.mem (r + i) = 0) ∧ s'.chs.length = s.chs.length := by
  unfold posixCalloc
  rw [Nat.mod_eq_of_lt hlt, posixMalloc_eq]
  rcases memalign_op (C := C) I ht hb hsz hcl with ⟨h1, e1⟩ | ⟨s1, r, e1, hr, a1, a2, I1, k1, len1⟩
  · left
    refine ⟨h1, ?_⟩
    rw [e1]; rfl
  right
  have hr1 : (⟨t, r, n * k, decide (b ≤ 1)⟩ : PBlock) ∈ ((G.drain t).add t r (n * k) (decide (b ≤ 1))).live :=
    (add_live hr).2 (Or.inl rfl)
  obtain ⟨I2, k2⟩ := store_eff (m' := fun x => if r ≤ x ∧ x < r + n * k then 0 else s1.w.mem x) I1 hr1
    (fun x hx => by
      unfold PBlock.Byte at hx
      simp only at hx ⊢
      rw [if_neg hx])
  refine ⟨_, r, ?_, hr, a1, a2, I2, ?_, ?_, len1⟩
  · rw [e1, Outcome.ok_bind]
    simp only
    unfold memZero
    rw [if_neg hr, Outcome.ok_bind]
    rfl
  · intro m hm _ x hx
    have hm1 : m ∈ ((G.drain t).add t r (n * k) (decide (b ≤ 1))).live := (add_live hr).2 (Or.inr hm)
    have hmr : m.ptr ≠ r := by
      intro h
      obtain ⟨_, _, _, _, K⟩ := I1
      have hnd := K.nodup
      unfold PSpec.add at hnd
      rw [if_neg hr] at hnd
      exact (List.pairwise_cons.1 hnd).1 m (List.mem_append_left _ hm) h.symm
    rw [k2 m hm1 hmr x hx, k1 m hm trivial x hx]
  · intro i hi
    show (if r ≤ r + i ∧ r + i < r + n * k then 0 else s1.w.mem (r + i)) = 0
    rw [if_pos ⟨by omega, by omega⟩]

/-- What a call does, apart from the blocks of the client. -/
structure POk (s : PS) (G : PSpec) (op : POp) (s' : PS) (r : Nat) : Prop where
  /-- the bytes that belong to a block before and after the call -/
  kept : (∀ a v, op ≠ .write a v) → ∀ l ∈ G.live, ∀ l' ∈ (G.after op r).live, l'.ptr = l.ptr →
    ∀ x, l.Byte x → l'.Byte x → s'.w.mem x = s.w.mem x
  /-- the block asked for -/
  malloc : ∀ t h n, op = .malloc t h n → r ≠ 0 ∧ (1 < h → h ∣ r) ∧ (h ≤ 1 → 16 ∣ r)
  memalign : ∀ t h n, op = .memalign t h n → r ≠ 0 ∧ (1 < h → h ∣ r) ∧ (h ≤ 1 → 16 ∣ r)
  calloc : ∀ t h n k, op = .calloc t h n k → r ≠ 0 ∧ (1 < h → h ∣ r) ∧ (h ≤ 1 → 16 ∣ r) ∧
    ∀ i, i < n * k → s'.w.mem (r + i) = 0
  realloc : ∀ t p h n, op = .realloc t p h n → (n ≠ 0 ∨ p = 0) → r ≠ 0 ∧
    (r ≠ p → (1 < h → h ∣ r) ∧ (h ≤ 1 → 16 ∣ r)) ∧
    ∀ l ∈ G.live, l.ptr = p → ∀ i, i < min l.len n → s'.w.mem (r + i) = s.w.mem (p + i)

/-- The environment after a call: only the creation of a thread changes it. -/
def Env.after (Ω : Env) : POp → Env
  | .spawn a z pb => Ω.spawn a z pb
  | _ => Ω

/-- Every valid call succeeds if the kernel has memory, and keeps the invariant. -/
theorem pstep {C : Config} {cl : Prop} {s : PS} {G : PSpec} (hf : C.reallocFactor ≠ 0) (I : PInv Ω cl s G) {op : POp}
    (hv : PValid s G op) (hcl : cl → CleanOp op) :
    (¬ OpMem s op ∧ pexec C s op = .ub) ∨
    ∃ s' r, pexec C s op = .ok (s', r) ∧ PInv (Ω.after op) cl s' (G.after op r) ∧ POk s G op s' r ∧ s.chs.length ≤ s'.chs.length := by
  cases op with
  | spawn a z pb =>
    right
    obtain ⟨h1, h2, h3, h4⟩ := hv
    obtain ⟨s', e, I', k'⟩ := spawn_eff I h1 h2 h3 h4
    refine ⟨s', 0, ?_, I', ⟨fun _ l hl _ _ _ x hx _ => k' l hl trivial x hx, ?_, ?_, ?_, ?_⟩, ?_⟩
    · unfold pexec; simp only; rw [e]; rfl
    · intro _ _ _ h; cases h
    · intro _ _ _ h; cases h
    · intro _ _ _ _ h; cases h
    · intro _ _ _ _ h; cases h
    · unfold posixSpawn at e
      obtain ⟨u, _, e⟩ := Outcome.bind_eq_ok e
      rw [Outcome.pure_eq] at e
      rw [← Outcome.ok.inj e]
      simp [PS.reserve]
  | malloc t h n =>
    obtain ⟨h1, h2, h3⟩ := hv
    rcases memalign_op (C := C) I h1 h2 h3 hcl with hx | ⟨s', r, e, hr, a1, a2, I', k', len⟩
    · exact Or.inl hx
    · refine Or.inr ⟨s', r, e, I', ⟨fun _ l hl _ _ _ x hx _ => k' l hl trivial x hx, ?_, ?_, ?_, ?_⟩, by omega⟩
      · intro _ _ _ h; cases h; exact ⟨hr, a1, a2⟩
      · intro _ _ _ h; cases h
      · intro _ _ _ _ h; cases h
      · intro _ _ _ _ h; cases h
  | memalign t h n =>
    obtain ⟨h1, h2, h3⟩ := hv
    rcases memalign_op (C := C) I h1 h2 h3 hcl with hx | ⟨s', r, e, hr, a1, a2, I', k', len⟩
    · exact Or.inl hx
    · refine Or.inr ⟨s', r, e, I', ⟨fun _ l hl _ _ _ x hx _ => k' l hl trivial x hx, ?_, ?_, ?_, ?_⟩, by omega⟩
      · intro _ _ _ h; cases h
      · intro _ _ _ h; cases h; exact ⟨hr, a1, a2⟩
      · intro _ _ _ _ h; cases h
      · intro _ _ _ _ h; cases h
  | calloc t h n k =>
    obtain ⟨h1, h2, h3, h4⟩ := hv
    rcases calloc_op (C := C) I h1 h2 h3 h4 hcl with hx | ⟨s', r, e, hr, a1, a2, I', k', hz, len⟩
    · exact Or.inl hx
    · refine Or.inr ⟨s', r, e, I', ⟨fun _ l hl _ _ _ x hx _ => k' l hl trivial x hx, ?_, ?_, ?_, ?_⟩, by omega⟩
      · intro _ _ _ h; cases h
      · intro _ _ _ h; cases h
      · intro _ _ _ _ h; cases h; exact ⟨hr, a1, a2, hz⟩
      · intro _ _ _ _ h; cases h
  | free t p =>
    right
    obtain ⟨h1, h2⟩ := hv
    obtain ⟨s', e, I', k', len⟩ := free_op (C := C) I h1 h2
    refine ⟨s', 0, ?_, I', ⟨fun _ l hl l' hl' hp x hx _ => k' l hl ?_ x hx, ?_, ?_, ?_, ?_⟩, by omega⟩
    · unfold pexec; simp only; rw [e]; rfl
    · show l.ptr ≠ p
      rw [← hp]; exact (del_live.1 hl').2
    · intro _ _ _ h; cases h
    · intro _ _ _ h; cases h
    · intro _ _ _ _ h; cases h
    · intro _ _ _ _ h; cases h
  | realloc t p h n =>
    obtain ⟨h1, h2, h3, h4⟩ := hv
    by_cases hp : p = 0
    · subst hp
      have hex : pexec C s (.realloc t 0 h n) = posixMemalign C s t h n := by
        unfold pexec posixRealloc
        simp only [if_true]
        rw [posixMalloc_eq]
      rw [hex]
      rcases memalign_op (C := C) I h1 h2 h3 hcl with hx | ⟨s', r, e, hr, a1, a2, I', k', len⟩
      · exact Or.inl hx
      · refine Or.inr ⟨s', r, e, ?_, ⟨fun _ l hl _ _ _ x hx _ => k' l hl trivial x hx, ?_, ?_, ?_, ?_⟩, by omega⟩
        · unfold PSpec.after; simp only [if_true]; exact I'
        · intro _ _ _ h; cases h
        · intro _ _ _ h; cases h
        · intro _ _ _ _ h; cases h
        · intro _ _ _ _ h; cases h
          exact fun _ => ⟨hr, fun _ => ⟨a1, a2⟩, fun l hl hp => absurd hp (I.ptr hl)⟩
    · obtain ⟨l, hl, rfl, hs⟩ := h4.resolve_left hp
      by_cases hn : n = 0
      · subst hn
        right
        obtain ⟨s', e, I', k', len⟩ := free_op (C := C) I h1 (Or.inr ⟨l, hl, rfl⟩)
        have ha : ∀ r, G.after (.realloc t l.ptr h 0) r = (G.drain t).del t l.ptr := by
          intro r
          unfold PSpec.after; simp only [if_true]; rw [if_neg hp]
        refine ⟨s', 0, ?_, by rw [ha]; exact I', ⟨fun _ m hm l' hl' hpm x hx _ => k' m hm ?_ x hx, ?_, ?_, ?_, ?_⟩, by omega⟩
        · unfold pexec posixRealloc; simp only [if_true]; rw [if_neg hp, e]; rfl
        · show m.ptr ≠ l.ptr
          rw [← hpm]; rw [ha] at hl'; exact (del_live.1 hl').2
        · intro _ _ _ h; cases h
        · intro _ _ _ h; cases h
        · intro _ _ _ _ h; cases h
        · intro _ _ _ _ h; cases h
          intro h; rcases h with h | h
          · exact absurd rfl h
          · exact absurd h hp
      · rcases realloc_op (C := C) I h1 hl hn hf h2 h3 hcl (hs.resolve_left hn) with
          hx | ⟨s', r, e, hr, I', k', al, cp, len⟩
        · exact Or.inl hx
        · refine Or.inr ⟨s', r, e, I', ⟨?_, ?_, ?_, ?_, ?_⟩, by omega⟩
          · intro _ m hm l' hl' hpm x hx hx'
            by_cases hml : m.ptr = l.ptr
            · obtain rfl := I.live_inj hm hl hml
              -- the block is still there: it was resized in place
              have haft := hl'
              unfold PSpec.after at haft
              simp only at haft
              rw [if_neg hp, if_neg hn] at haft
              split at haft
              · split at haft
                · rename_i hrp
                  obtain ⟨m0, hm0, rfl⟩ := List.mem_map.1 haft
                  have hm0p : m0.ptr = m.ptr := by
                    revert hpm; split <;> exact fun h => h
                  rw [if_pos hm0p] at hx'
                  unfold PBlock.Byte at hx hx'
                  simp only at hx'
                  have := cp (x - m.ptr) (by omega)
                  rw [hrp] at this
                  rwa [show m.ptr + (x - m.ptr) = x by omega] at this
                · rename_i hrp
                  rcases (add_live hr).1 haft with rfl | h'
                  · exact absurd hpm hrp
                  · exact absurd hpm (del_live.1 h').2
              · by_cases hrp : r = m.ptr
                · -- the new block of another thread is not the old one
                  exfalso
                  have hI := I'
                  unfold PSpec.after at hI
                  simp only at hI
                  rw [if_neg hp, if_neg hn] at hI
                  rename_i hmine
                  rw [if_neg hmine] at hI
                  have hown : m.owner ≠ t := by
                    rw [mine_iff I hm] at hmine
                    simpa using hmine
                  obtain ⟨_, _, _, _, K⟩ := hI
                  have hnd := K.nodup
                  unfold PSpec.add at hnd
                  rw [if_neg hr] at hnd
                  refine (List.pairwise_cons.1 hnd).1 m (List.mem_append_right _ ?_) hrp
                  unfold PSpec.del
                  exact List.mem_append_left _ (List.mem_filter.2 ⟨hm, by simpa using hown⟩)
                · rcases (add_live hr).1 haft with rfl | h'
                  · exact absurd hpm hrp
                  · exact absurd hpm (del_live.1 h').2
            · exact k' m hm hml x hx
          · intro _ _ _ h; cases h
          · intro _ _ _ h; cases h
          · intro _ _ _ _ h; cases h
          · intro _ _ _ _ h; cases h
            refine fun _ => ⟨hr, al, fun m hm hpm => ?_⟩
            obtain rfl := I.live_inj hm hl hpm
            exact cp
  | write a v =>
    right
    obtain ⟨l, hl, ha⟩ := hv
    obtain ⟨I', k'⟩ := store_eff (m' := fun x => if x = a then v else s.w.mem x) I hl (fun x hx => by
      exact if_neg (fun h : x = a => hx (by rw [h]; exact ha)))
    refine ⟨_, 0, rfl, I', ⟨fun h => absurd rfl (h a v), ?_, ?_, ?_, ?_⟩, Nat.le_refl _⟩
    · intro _ _ _ h; cases h
    · intro _ _ _ h; cases h
    · intro _ _ _ _ h; cases h
    · intro _ _ _ _ h; cases h

/-- The threads are alone in the process. -/
def Env.none : Env := ⟨[], fun _ => False, fun _ => 0, []⟩

theorem PInv.start {cl : Prop} {m : Mem} {R : Regions} {o : Os} (h1 : R.OK) (h2 : ∀ k, R.ent k = 0)
    (h3 : ∀ x, x ≤ MB2 → o.used x = true) : PInv Env.none cl ⟨⟨m, R, Light.init o⟩, []⟩ ⟨[], []⟩ := by
  refine ⟨[], [], [(0, MB2 + 1)], ?_, ?_⟩
  · constructor
    · rfl
    · intro t c g h; cases h
    · exact Light.init_inv m o
    · exact ⟨h1, by simp [shapes, Env.none], by simp [shapes, Env.none], by simp [shapes, Env.none],
        fun k hk => absurd (h2 k) hk⟩
    · simp [Res.mem]
    · intro d hd x _ hx
      simp only [Res.mem, List.mem_singleton] at hd
      subst hd
      exact h3 x (by simp only at hx; omega)
    · intro d _ e he; simp [shapes] at he
    · intro i j ci cj h; cases h
    · intro i j gi gj h; cases h
    · intro d hd; simp [Env.none] at hd
    · exact ⟨fun x h => h.elim, fun x h => h.elim, fun x h => h.elim, fun x h => h.elim, rfl, rfl⟩
  · exact ⟨by simp, by simp, by simp, fun _ t g h => by cases h⟩

theorem PReach.inv_ex {C : Config} {X : POp → Prop} {cl : Prop} {s : PS} {G : PSpec} (hf : C.reallocFactor ≠ 0)
    (h : PReach C X s G) (hX : cl → ∀ op, X op → CleanOp op) : ∃ Ω : Env, Ω.blocs = [] ∧ PInv Ω cl s G := by
  induction h with
  | init h1 h2 h3 => exact ⟨_, rfl, PInv.start h1 h2 h3⟩
  | @step s s' G op r _ hv hx e ih =>
    obtain ⟨Ω, hb, ih⟩ := ih
    rcases pstep hf ih hv (fun c => hX c _ hx) with ⟨_, e'⟩ | ⟨s', r, e', I', _⟩
    · rw [e'] at e; cases e
    · rw [e'] at e
      obtain ⟨rfl, rfl⟩ := Prod.mk.inj (Outcome.ok.inj e)
      exact ⟨Ω.after op, by cases op <;> exact hb, I'⟩

/-- The addresses of the structures of the threads, with no other registered bloc. -/
noncomputable def PReach.env {C : Config} {X : POp → Prop} {s : PS} {G : PSpec} (cl : Prop) (hf : C.reallocFactor ≠ 0)
    (h : PReach C X s G) (hX : cl → ∀ op, X op → CleanOp op) : Env := (h.inv_ex hf hX).choose

theorem PReach.inv {C : Config} {X : POp → Prop} {cl : Prop} {s : PS} {G : PSpec} (hf : C.reallocFactor ≠ 0)
    (h : PReach C X s G) (hX : cl → ∀ op, X op → CleanOp op) : PInv (h.env cl hf hX) cl s G :=
  (h.inv_ex hf hX).choose_spec.2

theorem PReach.env_blocs {C : Config} {X : POp → Prop} {cl : Prop} {s : PS} {G : PSpec} (hf : C.reallocFactor ≠ 0)
    (h : PReach C X s G) (hX : cl → ∀ op, X op → CleanOp op) : (h.env cl hf hX).blocs = [] :=
  (h.inv_ex hf hX).choose_spec.1

end MpcAlloc
