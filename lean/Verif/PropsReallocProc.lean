import Verif.PropsSlack

/-!
C76 for a process: when `realloc` leaves a block where it is, for any number of threads with the source of the memory, calls
one at a time.
-/

namespace MpcAlloc

variable {Ω : Env}

/-! ## Lemmas -/

section
variable {C : Config} {cl : Prop} {s s' : PS} {G : PSpec}

theorem chainRealloc_rule (I : PInv Ω cl s G) {l : PBlock} {c : Chain} {hook n r : Nat} {u : CS Light} (hl : l ∈ G.live)
    (hc : s.chs[l.owner]? = some c) (hf : C.reallocFactor ≠ 0) (hb : GoodBound hook) (hn : n ≠ 0)
    (hsz : PSize (alignedSize hook n)) (hsafe : l.plain = true ∨ n ≤ l.len)
    (e : chainRealloc (lightSource C) C hook ⟨s.w, c⟩ l.ptr n = .ok (u, r)) :
    (r = l.ptr ↔ LeftAlone C (chunkBytes s.w.mem l.ptr) n) ∧ (r = l.ptr → s.put l.owner u = s) := by
  have h1 := (realloc_stay I hl hc hf hb hn hsz hsafe e).2
  refine ⟨⟨fun h => ?_, fun h => ?_⟩, fun h => ?_⟩
  · exact (h1.resolve_right (fun h2 => h2.1 h)).2.2
  · obtain ⟨H, L, P, B, K⟩ := I
    obtain ⟨g, k, hg, hk, hq, hp, hfit, hpl⟩ := K.live l hl
    have T := B.th _ _ _ hc hg
    have J := B.at hc hg
    have hr := T.ch.wf.has_range hk.1
    have hz : chunkBytes s.w.mem l.ptr = k.size := by rw [← hp]; exact B.chunkBytes hg hk
    rw [hz] at h
    rw [← hp, srealloc_start J hk hn hf, if_pos ((reallocKeep_iff (by omega)).2 h)] at e
    rw [← (Prod.mk.inj (Outcome.ok.inj e)).2, hp]
  · exact (h1.resolve_right (fun h2 => h2.1 h)).2.1

theorem posixRealloc_rule {α : Type} {F : Mem → Nat → α} (hF : Seen F) (I : PInv Ω cl s G) {t hook n r : Nat} {l : PBlock} (ht : t < s.chs.length)
    (hl : l ∈ G.live) (hn : n ≠ 0) (hf : C.reallocFactor ≠ 0) (hb : GoodBound hook) (hsz : PSize (reqSize hook n))
    (hcl : cl → CleanSize (reqSize hook n)) (hsafe : l.owner ≠ t ∨ l.plain = true ∨ n ≤ l.len)
    (e0 : posixRealloc C hook s t l.ptr n = .ok (s', r)) :
    (r = l.ptr ↔ l.owner = t ∧ LeftAlone C (chunkBytes s.w.mem l.ptr) n) ∧
      (r = l.ptr → s'.w.mem = s.w.mem ∧ s'.w.src = s.w.src ∧ s'.chs = s.chs) ∧
      StayF F s s' (G.drain t) (fun m => m.ptr ≠ l.ptr ∨ m.owner ≠ t) := by
  have hc := List.getElem?_eq_getElem ht
  obtain ⟨R, b, c, e2, hb0, e3, hcz, hc2, e4, hts, I2, hpz⟩ := lookup_eff I hl
  have hreq : alignedSize hook n = reqSize hook n := by rw [reqSize_eq, if_neg hn]
  unfold posixRealloc at e0
  rw [if_neg hpz, if_neg hn, PS.loc_eq hc, Outcome.ok_bind, e2, Outcome.ok_bind] at e0
  simp only at e0
  rw [if_neg hb0, e3, if_neg hcz] at e0
  have e4' : PS.chainAt { w := { s.w with regs := R }, chs := s.chs } c.addr = .ok l.owner := e4
  rw [e4', Outcome.ok_bind] at e0
  have hc3 : (s.setRegs R).chs[l.owner]? = some c := hc2
  have e5 := PS.loc_eq hc3
  have e5' : PS.loc { w := { s.w with regs := R }, chs := s.chs } l.owner = .ok ⟨(s.setRegs R).w, c⟩ := e5
  rw [e5', Outcome.ok_bind] at e0
  simp only at e0
  by_cases ho : l.owner = t
  · have hcu : c = s.chs[t] := by
      rw [ho] at hc2
      exact Option.some.inj (hc2.symm.trans hc)
    rw [if_pos (Or.inl (by rw [hcu]))] at e0
    obtain ⟨⟨v, q⟩, e6, e0⟩ := Outcome.bind_eq_ok e0
    rw [Outcome.pure_eq] at e0
    obtain ⟨es, rfl⟩ := Prod.mk.inj (Outcome.ok.inj e0)
    have es : s' = (s.setRegs R).put l.owner v := es.symm
    have hs2 := hsafe.resolve_left (not_not.2 ho)
    obtain ⟨h1, h2⟩ := chainRealloc_rule (C := C) I2 hl hc3 hf hb hn (hreq ▸ hsz) hs2 e6
    have h3 := (realloc_stayF hF (C := C) I2 hl hc3 hf hb hn (hreq ▸ hsz) hs2 e6).1
    rw [← es] at h2 h3
    refine ⟨⟨fun h => ⟨ho, h1.1 h⟩, fun h => h1.2 h.2⟩, fun h => ?_, fun m hm hz => ?_⟩
    · rw [h2 h]; exact ⟨rfl, rfl, rfl⟩
    · have hm : m ∈ G.live ++ G.pend := by
        rcases List.mem_append.1 hm with hm | hm
        · exact List.mem_append_left _ hm
        · exact List.mem_append_right _ (List.mem_filter.1 hm).1
      refine h3 m hm (fun h => ?_)
      rcases hz with hz | hz
      · exact hz h
      · obtain ⟨_, _, _, _, K⟩ := I
        exact hz (by rw [ptr_eq_of_nodup K.nodup hm (List.mem_append_left _ hl) h]; exact ho)
  · have hcu : c.addr ≠ s.chs[t].addr := by
      intro h
      obtain ⟨H, L, P, B, K⟩ := I
      exact ho (B.addrs _ _ _ _ hc2 hc h)
    rw [if_neg (by rw [hts]; simp [hcu])] at e0
    rcases reallocInter_op (C := C) I2 (t := t) ht hl hn hb hsz hcl with ⟨_, e⟩ | ⟨s1, q, e, _, hq, _⟩
    · have e : posixReallocInter C hook { w := { s.w with regs := R }, chs := s.chs } t l.ptr n = .ub := e
      rw [e] at e0; cases e0
    have k := (inter_stayF hF (C := C) I2 (t := t) ht hl hn hb hsz hcl e0).1
    have e : posixReallocInter C hook { w := { s.w with regs := R }, chs := s.chs } t l.ptr n = .ok (s1, q) := e
    obtain ⟨rfl, rfl⟩ := Prod.mk.inj (Outcome.ok.inj (e.symm.trans e0))
    exact ⟨⟨fun h => absurd h hq, fun h => absurd h.1 ho⟩, fun h => absurd h hq, k⟩

theorem posixRealloc_inplace (I : PInv Ω cl s G) {hook n : Nat} {l : PBlock} (hl : l ∈ G.live) (hn : n ≠ 0)
    (hf : C.reallocFactor ≠ 0) (hz : LeftAlone C (chunkBytes s.w.mem l.ptr) n) :
    ∃ R, posixRealloc C hook s l.owner l.ptr n = .ok (s.setRegs R, l.ptr) := by
  obtain ⟨R, b, c, e2, hb0, e3, hcz, hc2, e4, hts, I2, hpz⟩ := lookup_eff I hl
  refine ⟨R, ?_⟩
  unfold posixRealloc
  rw [if_neg hpz, if_neg hn, PS.loc_eq hc2, Outcome.ok_bind, e2, Outcome.ok_bind]
  simp only
  rw [if_neg hb0, e3, if_neg hcz]
  have e4' : PS.chainAt { w := { s.w with regs := R }, chs := s.chs } c.addr = .ok l.owner := e4
  rw [e4', Outcome.ok_bind]
  have hc3 : (s.setRegs R).chs[l.owner]? = some c := hc2
  have e5' : PS.loc { w := { s.w with regs := R }, chs := s.chs } l.owner = .ok ⟨(s.setRegs R).w, c⟩ := PS.loc_eq hc3
  rw [e5', Outcome.ok_bind]
  simp only
  rw [if_pos (Or.inl trivial)]
  obtain ⟨H, L, P, B, K⟩ := I2
  obtain ⟨g, k, hg, hk, hq, hp, hfit, hpl⟩ := K.live l hl
  have T := B.th _ _ _ hc3 hg
  have J := B.at hc3 hg
  have hr := T.ch.wf.has_range hk.1
  have h1 : chunkBytes s.w.mem l.ptr = k.size := by rw [← hp]; exact B.chunkBytes hg hk
  rw [h1] at hz
  have e : chainRealloc (lightSource C) C hook ⟨(s.setRegs R).w, c⟩ l.ptr n = .ok (⟨(s.setRegs R).w, c⟩, l.ptr) := by
    rw [← hp, srealloc_start J hk hn hf, if_pos ((reallocKeep_iff (by omega)).2 hz)]
  rw [e, Outcome.ok_bind]
  simp only
  have := PS.put_self hc3
  unfold PS.put at this ⊢
  exact congrArg (fun z => Outcome.ok (z, l.ptr)) this

end

/-- What `F` says of a live block is the same until the block is freed or moved. -/
theorem kept_call {α : Type} {F : Mem → Nat → α} (hF : Seen F) {C : Config} {X : POp → Prop} {s s' : PS} {G : PSpec} {op : POp} {r : Nat} {l l' : PBlock}
    (hf : C.reallocFactor ≠ 0) (h : PReach C X s G) (hv : PValid s G op) (e : pexec C s op = .ok (s', r))
    (hl : l ∈ G.live) (hl' : l' ∈ (G.after op r).live) (hp : l'.ptr = l.ptr) :
    F s'.w.mem l.ptr = F s.w.mem l.ptr := by
  have I := h.inv (cl := False) hf False.elim
  have hd : ∀ t, l ∈ (G.drain t).live ++ (G.drain t).pend := fun _ => List.mem_append_left _ hl
  have ha : l ∈ G.live ++ G.pend := List.mem_append_left _ hl
  cases op with
  | spawn a z pb =>
    unfold pexec at e
    simp only at e
    obtain ⟨s1, e1, e⟩ := Outcome.bind_eq_ok e
    rw [Outcome.pure_eq] at e
    obtain ⟨rfl, rfl⟩ := Prod.mk.inj (Outcome.ok.inj e)
    exact spawn_stayF hF I hv e1 l ha trivial
  | malloc t b n => exact memalign_stayF hF I hv.1 hv.2.1 hv.2.2 e l (hd t) trivial
  | memalign t b n => exact memalign_stayF hF I hv.1 hv.2.1 hv.2.2 e l (hd t) trivial
  | calloc t b n k =>
    obtain ⟨h1, h2, h3, h4⟩ := hv
    unfold pexec posixCalloc at e
    simp only at e
    rw [Nat.mod_eq_of_lt h3, posixMalloc_eq] at e
    rcases memalign_op (C := C) I h1 h2 h4 False.elim with ⟨_, e1⟩ | ⟨s1, q, e1, hr, _, _, I1, _⟩
    · rw [e1] at e; cases e
    have k := memalign_stayF hF I h1 h2 h4 e1 l (hd t) trivial
    rw [e1, Outcome.ok_bind] at e
    simp only at e
    unfold memZero at e
    rw [if_neg hr, Outcome.ok_bind, Outcome.pure_eq] at e
    obtain ⟨rfl, rfl⟩ := Prod.mk.inj (Outcome.ok.inj e)
    rw [← k]
    exact store_stayF hF I1 ((add_live hr).2 (Or.inl rfl)) (fun x hx => by
      unfold PBlock.Byte at hx
      simp only at hx ⊢
      rw [if_neg hx]) l (List.mem_append_left _ ((add_live hr).2 (Or.inr hl))) trivial
  | free t p =>
    unfold pexec at e
    simp only at e
    obtain ⟨s1, e1, e⟩ := Outcome.bind_eq_ok e
    rw [Outcome.pure_eq] at e
    obtain ⟨rfl, rfl⟩ := Prod.mk.inj (Outcome.ok.inj e)
    refine free_op_stayF hF I hv.1 hv.2 e1 l (hd t) (Or.inl ?_)
    rw [← hp]
    exact ((del_live (G := G.drain t) (t := t)).1 hl').2
  | realloc t p b n =>
    obtain ⟨h1, h2, h3, h4⟩ := hv
    by_cases hp0 : p = 0
    · subst hp0
      have e : posixMemalign C s t b n = .ok (s', r) := by
        unfold pexec posixRealloc at e
        simp only [if_true] at e
        rw [posixMalloc_eq] at e
        exact e
      exact memalign_stayF hF I h1 h2 h3 e l (hd t) trivial
    · obtain ⟨m, hm, rfl, hs⟩ := h4.resolve_left hp0
      by_cases hn : n = 0
      · subst hn
        have ha : G.after (.realloc t m.ptr b 0) r = (G.drain t).del t m.ptr := by
          unfold PSpec.after; simp only [if_true]; rw [if_neg hp0]
        rw [ha] at hl'
        unfold pexec posixRealloc at e
        simp only [if_true] at e
        rw [if_neg hp0] at e
        obtain ⟨s1, e1, e⟩ := Outcome.bind_eq_ok e
        rw [Outcome.pure_eq] at e
        obtain ⟨rfl, rfl⟩ := Prod.mk.inj (Outcome.ok.inj e)
        refine free_op_stayF hF I h1 (Or.inr ⟨m, hm, rfl⟩) e1 l (hd t) (Or.inl ?_)
        rw [← hp]
        exact ((del_live (G := G.drain t) (t := t)).1 hl').2
      · obtain ⟨a1, a2, a3⟩ := posixRealloc_rule hF I h1 hm hn hf h2 h3 False.elim (hs.resolve_left hn) e
        by_cases hml : l.ptr = m.ptr
        · by_cases hr : r = m.ptr
          · rw [(a2 hr).1]
          · exfalso
            unfold PSpec.after at hl'
            simp only at hl'
            rw [if_neg hp0, if_neg hn, if_neg hr] at hl'
            have key : ∀ G1 : PSpec, l' ∈ ((G1.del t m.ptr).add t r n (decide (b ≤ 1))).live → False := by
              intro G1 h
              by_cases hr0 : r = 0
              · unfold PSpec.add at h
                rw [if_pos hr0] at h
                exact (del_live.1 h).2 (by rw [hp, hml])
              · rcases (add_live hr0).1 h with rfl | h
                · exact hr (by rw [← hml, ← hp])
                · exact (del_live.1 h).2 (by rw [hp, hml])
            split at hl'
            · exact key _ hl'
            · exact key _ hl'
        · exact a3 l (hd t) (Or.inl hml)
  | write a v =>
    obtain ⟨m, hm, ha'⟩ := hv
    obtain ⟨rfl, rfl⟩ := Prod.mk.inj (Outcome.ok.inj e)
    exact store_stayF hF I hm (fun x hx => if_neg (fun h : x = a => hx (by rw [h]; exact ha'))) l ha trivial

/-! ## Properties -/

/-- C76, for a process: if the rule holds, a `realloc` by the thread that obtained the block succeeds, whatever the kernel
answers, and changes nothing but the registration of regions. -/
theorem C76_inplace {C : Config} {X : POp → Prop} {s : PS} {G : PSpec} {hook n : Nat} {l : PBlock}
    (hf : C.reallocFactor ≠ 0) (h : PReach C X s G) (hl : l ∈ G.live) (hn : n ≠ 0)
    (hz : LeftAlone C (chunkBytes s.w.mem l.ptr) n) :
    ∃ R, pexec C s (.realloc l.owner l.ptr hook n) = .ok (s.setRegs R, l.ptr) :=
  posixRealloc_inplace (h.inv (cl := False) hf False.elim) hl hn hf hz

/-- C76, for a process with any number of threads: `realloc` of a live block to `n` bytes returns the same address exactly if
the calling thread obtained the block and the rule holds for the size of its chunk. It then changes neither the memory, nor
the chains, nor the source. Missing: the sizes that do not fit (`PSize`), and blocks with a boundary that are made larger by
their owner (`PValid`, see `C14_refuted`). -/
theorem C76_process_partial {C : Config} {X : POp → Prop} {s s' : PS} {G : PSpec} {t hook n r : Nat} {l : PBlock}
    (hf : C.reallocFactor ≠ 0) (h : PReach C X s G) (hl : l ∈ G.live) (hn : n ≠ 0)
    (hv : PValid s G (.realloc t l.ptr hook n)) (e : pexec C s (.realloc t l.ptr hook n) = .ok (s', r)) :
    (r = l.ptr ↔ l.owner = t ∧ LeftAlone C (chunkBytes s.w.mem l.ptr) n) ∧
      (r = l.ptr → s'.w.mem = s.w.mem ∧ s'.w.src = s.w.src ∧ s'.chs = s.chs) := by
  have I := h.inv (cl := False) hf False.elim
  obtain ⟨h1, h2, h3, h4⟩ := hv
  obtain ⟨m, hm, hp, hs⟩ := h4.resolve_left (I.ptr hl)
  obtain rfl := I.live_inj hm hl hp
  obtain ⟨a, b, _⟩ := posixRealloc_rule chunkBytes_seen I h1 hl hn hf h2 h3 False.elim (hs.resolve_left hn) e
  exact ⟨a, b⟩

/-- C76, for a process: the chunk of a live block is the same until the block is freed or moved, whatever the threads call
and store. Missing: see `C76_process_partial`. -/
theorem C76_chunk_constant_partial {C : Config} {X : POp → Prop} {s s' : PS} {G : PSpec} {op : POp} {r : Nat} {l l' : PBlock}
    (hf : C.reallocFactor ≠ 0) (h : PReach C X s G) (hv : PValid s G op) (e : pexec C s op = .ok (s', r))
    (hl : l ∈ G.live) (hl' : l' ∈ (G.after op r).live) (hp : l'.ptr = l.ptr) :
    chunkBytes s'.w.mem l.ptr = chunkBytes s.w.mem l.ptr :=
  kept_call chunkBytes_seen hf h hv e hl hl' hp

/-- C76, for a process, with the default parameters: after any history, a `realloc` by its owner of a block without boundary
to the size that it has leaves it alone, for 16 bytes and for 24 bytes or more, but for the 15 sizes just below 2 MB of
`C76_again_refuted`. Missing: the smaller sizes (see `C76_same_size_refuted`). -/
theorem C76_again_partial {X : POp → Prop} {s s' : PS} {G : PSpec} {hook r : Nat} {l : PBlock}
    (h : PReach Config.default X s G) (hl : l ∈ G.live) (hp : l.plain = true) (h1 : l.len = 16 ∨ 24 ≤ l.len)
    (h2 : l.len < 2097105 ∨ 2097119 < l.len)
    (hv : PValid s G (.realloc l.owner l.ptr hook l.len))
    (e : pexec Config.default s (.realloc l.owner l.ptr hook l.len) = .ok (s', r)) :
    r = l.ptr ∧ s'.w.mem = s.w.mem ∧ s'.w.src = s.w.src ∧ s'.chs = s.chs := by
  have hf : Config.default.reallocFactor ≠ 0 := by decide
  obtain ⟨a, b⟩ := C76_process_partial hf h hl (by omega) hv e
  have hk : LeftAlone Config.default (chunkBytes s.w.mem l.ptr) l.len := by
    have hge : l.len + 16 ≤ chunkBytes s.w.mem l.ptr := by
      obtain ⟨H, L, P, B, K⟩ := h.inv (cl := False) hf False.elim
      obtain ⟨g, k, hg, hk, hq, hp', hfit, hpl⟩ := K.live l hl
      have hz : chunkBytes s.w.mem l.ptr = k.size := by rw [← hp']; exact B.chunkBytes hg hk
      have h16 : k.uptr = k.addr + 16 := by simp only [Ck.uptr, Ck.off, hpl hp]
      omega
    have hs := C83_slack_partial hf h (List.mem_append_left _ hl) hp
    have hT : Config.default.reallocThreshold = 52428800 := rfl
    have hF : Config.default.reallocFactor = 2 := rfl
    unfold Slack at hs
    rcases hs with ⟨N, n1, n2, hs⟩ | hs
    · have hM : MB2 = 2097152 := rfl
      have : N = l.len := by omega
      unfold NewChunk at hs
      unfold LeftAlone
      rw [hT, hF]
      omega
    · exact hs
  exact ⟨a.2 ⟨rfl, hk⟩, b (a.2 ⟨rfl, hk⟩)⟩

/-- C76 is false for 15 sizes, with the default parameters: a block of 2097105 to 2097119 bytes is alone in a bloc of 4 MB, of
which it leaves more than half unused, so that a `realloc` to the same size moves it to another such bloc. -/
theorem C76_again_refuted {n : Nat} (h1 : 2097105 ≤ n) (h2 : n ≤ 2097119) :
    ∃ s l, PReach Config.default CleanOp s ⟨[l], []⟩ ∧ l.plain = true ∧ l.owner = 0 ∧ l.len = n ∧
      PValid s ⟨[l], []⟩ (.realloc 0 l.ptr 0 n) ∧
      ∀ s' r, pexec Config.default s (.realloc 0 l.ptr 0 n) = .ok (s', r) → r ≠ l.ptr := by
  have hM : MB2 = 2097152 := rfl
  have hreq : reqSize 0 n = n := by unfold reqSize; rw [if_neg (by omega), if_neg (by omega)]; rfl
  have hps : PSize n := by unfold PSize; omega
  obtain ⟨s, r, h, hlen, hr0, s0, h0, hl0, _, e⟩ := sample_block (C := Config.default) (X := CleanOp) (by decide)
    (fun _ _ _ => trivial) (n := n) (by omega) hps (by omega)
    (by show CleanSize (reqSize 0 n); rw [hreq]; unfold CleanSize; omega)
  have hf : Config.default.reallocFactor ≠ 0 := by decide
  have hl : (⟨0, r, n, true⟩ : PBlock) ∈ (⟨[⟨0, r, n, true⟩], []⟩ : PSpec).live := by simp
  have hv : PValid s ⟨[⟨0, r, n, true⟩], []⟩ (.realloc 0 r 0 n) :=
    ⟨by omega, Or.inl (by omega), by rw [hreq]; exact hps, Or.inr ⟨_, hl, rfl, Or.inr (Or.inr (Or.inl rfl))⟩⟩
  have hz : NewChunk n (chunkBytes s.w.mem r) := by
    have := C82_chunk_partial hf h0 (t := 0) (b := 0) (n := n) (by omega) (Or.inl (by omega)) (by rw [hreq]; exact hps) e
    rwa [hreq] at this
  refine ⟨s, _, h, rfl, rfl, rfl, hv, fun s' q e' hq => ?_⟩
  have hk := ((C76_process_partial hf h hl (by omega) hv e').1.1 hq).2
  have hF : Config.default.reallocFactor = 2 := rfl
  unfold LeftAlone at hk
  rw [hF] at hk
  unfold NewChunk at hz
  simp only at hk
  omega

/-- C76, for a process, with the default parameters: no block is ever left alone by a `realloc` to less than 8 bytes, whatever
its size; in particular one that has this size already. Missing: see `C76_process_partial`. -/
theorem C76_tiny_partial {X : POp → Prop} {s s' : PS} {G : PSpec} {t hook n r : Nat} {l : PBlock}
    (h : PReach Config.default X s G) (hl : l ∈ G.live) (hn : n ≠ 0) (h8 : n < 8)
    (hv : PValid s G (.realloc t l.ptr hook n)) (e : pexec Config.default s (.realloc t l.ptr hook n) = .ok (s', r)) :
    r ≠ l.ptr := by
  intro hr
  have hf : Config.default.reallocFactor ≠ 0 := by decide
  have hk := ((C76_process_partial hf h hl hn hv e).1.1 hr).2
  have h32 : 32 ≤ chunkBytes s.w.mem l.ptr := by
    obtain ⟨H, L, P, B, K⟩ := h.inv (cl := False) hf False.elim
    obtain ⟨g, k, hg, hk, hq, hp', hfit, hpl⟩ := K.live l hl
    obtain ⟨c, hc, T⟩ := B.getH hg
    have := (T.ch.wf.has_wf hk.1).ge
    rw [← hp', B.chunkBytes hg hk]
    exact this
  have hF : Config.default.reallocFactor = 2 := rfl
  unfold LeftAlone at hk
  rw [hF] at hk
  omega

/-- Hypotheses of the theorems above: a thread resizes a block of 1000 bytes to 600 bytes. The block is left alone, so that
its chunk has more than 47 bytes in excess. -/
example : ∃ s s' G l, PReach Config.default CleanOp s G ∧ l ∈ G.live ∧ l.plain = true ∧ l.owner = 0 ∧ l.len = 1000 ∧
    PValid s G (.realloc 0 l.ptr 0 600) ∧ pexec Config.default s (.realloc 0 l.ptr 0 600) = .ok (s', l.ptr) ∧
    600 + 47 < chunkBytes s'.w.mem l.ptr := by
  obtain ⟨s, r, h, hlen, hr0, s0, h0, hl0, _, e⟩ := sample_block (C := Config.default) (X := CleanOp) (by decide)
    (fun _ _ _ => trivial) (n := 1000) (by omega) (by unfold PSize; omega) (by omega)
    (by show CleanSize (reqSize 0 1000); unfold CleanSize reqSize; simp)
  have hf : Config.default.reallocFactor ≠ 0 := by decide
  have hl : (⟨0, r, 1000, true⟩ : PBlock) ∈ (⟨[⟨0, r, 1000, true⟩], []⟩ : PSpec).live := by simp
  have hv : PValid s ⟨[⟨0, r, 1000, true⟩], []⟩ (.realloc 0 r 0 600) :=
    ⟨by omega, Or.inl (by omega), by unfold PSize reqSize; simp, Or.inr ⟨_, hl, rfl, Or.inr (Or.inr (Or.inl rfl))⟩⟩
  have hz1 := C83_slack_partial hf h (List.mem_append_left _ hl) rfl
  have hz2 : 1016 ≤ chunkBytes s.w.mem r := by
    obtain ⟨H, L, P, B, K⟩ := h.inv (cl := False) hf False.elim
    obtain ⟨g, k, hg, hk, hq, hp', hfit, hpl⟩ := K.live _ hl
    have hz : chunkBytes s.w.mem k.uptr = k.size := B.chunkBytes hg hk
    have h16 : k.uptr = k.addr + 16 := by simp only [Ck.uptr, Ck.off, hpl rfl]
    simp only at hp' hfit
    rw [← hp']
    omega
  have hz3 : chunkBytes s.w.mem r ≤ 1062 := by
    have := C82_overhead_partial hf h0 (t := 0) (b := 0) (n := 1000) (by omega) (Or.inl (by omega))
      (by unfold PSize reqSize; simp) e
    unfold reqSize at this
    simp at this
    omega
  obtain ⟨R, e'⟩ := C76_inplace (hook := 0) hf h hl (n := 600) (by omega) (by
    have hT : Config.default.reallocThreshold = 52428800 := rfl
    have hF : Config.default.reallocFactor = 2 := rfl
    unfold LeftAlone
    rw [hT, hF]
    simp only
    omega)
  refine ⟨s, _, _, _, h, hl, rfl, rfl, rfl, hv, e', ?_⟩
  rw [(C76_process_partial hf h hl (by omega) hv e').2 rfl |>.1]
  show 647 < chunkBytes s.w.mem r
  omega

end MpcAlloc
