import Verif.PropsPosix

/-
Concrete histories of the POSIX level: they show that the hypotheses of the theorems of PropsPosix are met, and refute C24,
C31 and C43 for the sizes left out there.
-/

namespace MpcAlloc

variable {Ω : Env}

/-! ## Sample states -/

/-- A kernel that maps at 1 TB, then 4 GB further for each mapping. -/
def os1 : Os := ⟨fun k => 1099511627776 + k * 4294967296, 0, fun x => decide (x ≤ MB2)⟩

/-- A process at its start. -/
def ps0 : PS := ⟨⟨fun _ => 0, Regions.empty, Light.init os1⟩, []⟩

theorem ps0_reach (C : Config) (X : POp → Prop) : PReach C X ps0 ⟨[], []⟩ :=
  .init Regions.empty_ok (fun _ => rfl) (fun x hx => by simpa [os1] using hx)

theorem posixSpawn_src {s s' : PS} {a z pb : Nat} (h1 : 0 < pb) (h2 : pb + 1536 < W64)
    (h : posixSpawn s a z pb = .ok s') : s'.w.src = (s.reserve a z).w.src ∧ s'.chs.length = s.chs.length + 1 := by
  obtain ⟨u, e, Iu, eR, eS, _⟩ :=
    chainBaseInit_ok (s.reserve a z).w (addr := a) (pb := pb) false false false h1 h2
  have eu : userInit (s.reserve a z).w a pb 0 0 false false false = .ok { u with c := { u.c with hasSrc := false } } := by
    unfold userInit
    rw [e, Outcome.ok_bind, if_neg (by simp), Outcome.pure_eq, Outcome.ok_bind]
    rfl
  unfold posixSpawn at h
  simp only at h
  rw [eu, Outcome.ok_bind, Outcome.pure_eq] at h
  rw [← Outcome.ok.inj h]
  exact ⟨eS, by simp [PS.reserve]⟩

/-- Two threads, and the state of the kernel. -/
theorem sample_threads_os {C : Config} (hf : C.reallocFactor ≠ 0) {X : POp → Prop} (hX : ∀ a z pb, X (.spawn a z pb)) :
    ∃ s, PReach C X s ⟨[], []⟩ ∧ s.chs.length = 2 ∧ s.w.src.os.k = 0 ∧ s.w.src.os.ans = os1.ans ∧
      ∀ x, 8392704 ≤ x → s.w.src.os.used x = false := by
  have r0 := ps0_reach C X
  have v0 : PValid ps0 ⟨[], []⟩ (.spawn 4194304 4096 4194304) :=
    ⟨by omega, by omega, by omega, fun x h1 h2 => by
      show decide (x ≤ MB2) = false
      exact decide_eq_false (by omega)⟩
  obtain ⟨s1, _, e1, k1⟩ := C30_calls_partial hf r0 v0 trivial
  have r1 := r0.step v0 (hX _ _ _) e1
  obtain ⟨s1', e1', e1⟩ := Outcome.bind_eq_ok (show (posixSpawn ps0 4194304 4096 4194304 >>= fun s => pure (s, 0)) = _ from e1)
  simp only [Outcome.pure_eq] at e1
  obtain ⟨rfl, rfl⟩ := Prod.mk.inj (Outcome.ok.inj e1)
  obtain ⟨q1, l1⟩ := posixSpawn_src (by omega) (by omega) e1'
  have u1 : ∀ x, 4198400 ≤ x → s1'.w.src.os.used x = false := by
    intro x hx
    rw [q1]
    show (if 4194304 ≤ x ∧ x < 4194304 + 4096 then true else decide (x ≤ MB2)) = false
    rw [if_neg (by omega)]
    exact decide_eq_false (by omega)
  have v1 : PValid s1' ⟨[], []⟩ (.spawn 8388608 4096 8388608) :=
    ⟨by omega, by omega, by omega, fun x h1 h2 => u1 x (by omega)⟩
  obtain ⟨s2, _, e2, k2⟩ := C30_calls_partial hf r1 v1 trivial
  have r2 := PReach.step r1 v1 (hX _ _ _) e2
  obtain ⟨s2', e2', e2⟩ := Outcome.bind_eq_ok (show (posixSpawn s1' 8388608 4096 8388608 >>= fun s => pure (s, 0)) = _ from e2)
  simp only [Outcome.pure_eq] at e2
  obtain ⟨rfl, rfl⟩ := Prod.mk.inj (Outcome.ok.inj e2)
  obtain ⟨q2, l2⟩ := posixSpawn_src (by omega) (by omega) e2'
  refine ⟨s2', r2, by rw [l2, l1]; rfl, ?_, ?_, fun x hx => ?_⟩
  · rw [q2]
    show s1'.w.src.os.k = 0
    rw [q1]; rfl
  · rw [q2]
    show s1'.w.src.os.ans = os1.ans
    rw [q1]; rfl
  · rw [q2]
    show (if 8388608 ≤ x ∧ x < 8388608 + 4096 then true else s1'.w.src.os.used x) = false
    rw [if_neg (by omega)]
    exact u1 _ (by omega)

/-- Two threads. -/
theorem sample_threads {C : Config} (hf : C.reallocFactor ≠ 0) {X : POp → Prop} (hX : ∀ a z pb, X (.spawn a z pb)) :
    ∃ s, PReach C X s ⟨[], []⟩ ∧ s.chs.length = 2 ∧ ∀ N, N ≤ 1073741824 → HasMem s N := by
  obtain ⟨s, h, hl, h1, h2, h3⟩ := sample_threads_os hf hX
  refine ⟨s, h, hl, fun N hN => ?_⟩
  unfold HasMem
  rw [h1, h2]
  show s.w.src.os.Fresh 1099511627776 _
  have hp : pageUp (N + 80 + MB2) ≤ 2147483648 := by unfold pageUp; omega
  exact ⟨by omega, by omega, by omega, by omega, fun i _ => h3 _ (by omega)⟩

/-- A block of the first thread. -/
theorem sample_block {C : Config} (hf : C.reallocFactor ≠ 0) {X : POp → Prop} (hX : ∀ a z pb, X (.spawn a z pb)) {n : Nat}
    (hn : 0 < n) (hs : PSize n) (h30 : n ≤ 1073741824) (hXn : X (.malloc 0 0 n)) :
    ∃ s r, PReach C X s ⟨[⟨0, r, n, true⟩], []⟩ ∧ s.chs.length = 2 ∧ r ≠ 0 ∧
      ∃ s0, PReach C X s0 ⟨[], []⟩ ∧ s0.chs.length = 2 ∧ HasMem s0 n ∧ posixMalloc C 0 s0 0 n = .ok (s, r) := by
  obtain ⟨s, h, hl, hm⟩ := sample_threads hf hX
  have hr : reqSize 0 n = n := by unfold reqSize; rw [if_neg (by omega), if_neg (by omega)]; rfl
  have v : PValid s ⟨[], []⟩ (.malloc 0 0 n) := ⟨by omega, Or.inl (by omega), by rw [hr]; exact hs⟩
  have m : OpMem s (.malloc 0 0 n) := by
    show HasMem s (reqSize 0 n)
    rw [hr]; exact hm n h30
  rcases memalign_op (C := C) (h.inv (cl := False) hf False.elim) v.1 v.2.1 v.2.2 False.elim with
    ⟨h1, _⟩ | ⟨s', r, e, hr0, _, _, _, _, len⟩
  · exact absurd m h1
  · have e' : pexec C s (.malloc 0 0 n) = .ok (s', r) := e
    have := PReach.step h v hXn e'
    refine ⟨s', r, ?_, by omega, hr0, s, h, hl, hm n h30, e⟩
    unfold PSpec.after PSpec.add PSpec.drain at this
    simp only [List.filter_nil] at this
    rw [if_neg hr0] at this
    exact this

/-- Hypotheses of C30 and C43: a reachable state with a live block. -/
example : ∃ s r, PReach Config.default (fun _ => True) s ⟨[⟨0, r, 100, true⟩], []⟩ ∧ s.chs.length = 2 ∧ r ≠ 0 := by
  obtain ⟨s, r, h, hl, hr, _⟩ := sample_block (C := Config.default) (X := fun _ => True) (by decide) (fun _ _ _ => trivial)
    (n := 100) (by omega) (by unfold PSize; omega) (by omega) trivial
  exact ⟨s, r, h, hl, hr⟩

/-- Hypotheses of `C30_pending_partial`: the second thread frees the block, which becomes pending, and then makes another call. -/
example : ∃ s r, PReach Config.default (fun _ => True) s ⟨[], [⟨0, r, 100, true⟩]⟩ ∧ r ≠ 0 ∧
    PValid s ⟨[], [⟨0, r, 100, true⟩]⟩ (.free 1 0) ∧ ∃ s', pexec Config.default s (.free 1 0) = .ok (s', 0) := by
  have hf : Config.default.reallocFactor ≠ 0 := by decide
  obtain ⟨s, r, h, hl, hr, _⟩ := sample_block (C := Config.default) (X := fun _ => True) (by decide) (fun _ _ _ => trivial)
    (n := 100) (by omega) (by unfold PSize; omega) (by omega) trivial
  have v : PValid s ⟨[⟨0, r, 100, true⟩], []⟩ (.free 1 r) := ⟨by omega, Or.inr ⟨_, List.mem_singleton.2 rfl, rfl⟩⟩
  obtain ⟨s', r', e, _⟩ := C30_calls_partial hf h v trivial
  have len : s'.chs.length = 2 := by
    obtain ⟨s1, e1, _, _, len⟩ := free_op (C := Config.default) (h.inv (cl := False) hf False.elim) v.1 v.2
    unfold pexec at e
    simp only at e
    rw [e1] at e
    obtain ⟨rfl, _⟩ := Prod.mk.inj (Outcome.ok.inj e)
    omega
  have h' := PReach.step h v trivial e
  have hG : PSpec.after ⟨[⟨0, r, 100, true⟩], []⟩ (.free 1 r) r' = ⟨[], [⟨0, r, 100, true⟩]⟩ := by
    simp [PSpec.after, PSpec.del, PSpec.drain]
  rw [hG] at h'
  have v' : PValid s' ⟨[], [⟨0, r, 100, true⟩]⟩ (.free 1 0) := ⟨by omega, Or.inl rfl⟩
  obtain ⟨s2, e2, _⟩ := free_op (C := Config.default) (h'.inv (cl := False) hf False.elim) v'.1 v'.2
  refine ⟨s', r, h', hr, v', s2, ?_⟩
  unfold pexec
  simp only
  rw [e2]; rfl

/-- Hypotheses of C24: the block was freed by its owner. -/
example : ∃ s s0 r, PReach Config.default CleanOp s ⟨[], []⟩ ∧ PReach Config.default CleanOp s0 ⟨[⟨0, r, 100, true⟩], []⟩ ∧
    posixFree Config.default s0 0 r = .ok s := by
  have hf : Config.default.reallocFactor ≠ 0 := by decide
  obtain ⟨s, r, h, hl, hr, _⟩ := sample_block (C := Config.default) (X := CleanOp) (by decide) (fun _ _ _ => trivial)
    (n := 100) (by omega) (by unfold PSize; omega) (by omega) (by
      show CleanSize (reqSize 0 100)
      unfold reqSize CleanSize; simp)
  have v : PValid s ⟨[⟨0, r, 100, true⟩], []⟩ (.free 0 r) := ⟨by omega, Or.inr ⟨_, List.mem_singleton.2 rfl, rfl⟩⟩
  obtain ⟨s1, e1, _, _, len⟩ := free_op (C := Config.default) (h.inv (cl := False) hf False.elim) v.1 v.2
  have e : pexec Config.default s (.free 0 r) = .ok (s1, 0) := by
    unfold pexec; simp only; rw [e1]; rfl
  have h' := PReach.step h v trivial e
  have hG : PSpec.after ⟨[⟨0, r, 100, true⟩], []⟩ (.free 0 r) 0 = ⟨[], []⟩ := by
    simp [PSpec.after, PSpec.del, PSpec.drain]
  rw [hG] at h'
  exact ⟨s1, s, r, h', h, e1⟩

/-- Hypotheses of C31 and C32. -/
example : ∃ s, PReach Config.default (fun _ => True) s ⟨[], []⟩ ∧
    (PValid s ⟨[], []⟩ (.calloc 0 0 3 100) ∧ OpMem s (.calloc 0 0 3 100)) ∧
    (PValid s ⟨[], []⟩ (.memalign 0 (2 ^ 6) 100) ∧ OpMem s (.memalign 0 (2 ^ 6) 100)) ∧
    PValid s ⟨[], []⟩ (.memalign 0 0 100) ∧ OpMem s (.memalign 0 0 100) := by
  obtain ⟨s, h, hl, hm⟩ := sample_threads (C := Config.default) (X := fun _ => True) (by decide) (fun _ _ _ => trivial)
  have e1 : reqSize 0 (3 * 100) = 300 := rfl
  have e2 : reqSize (2 ^ 6) 100 = 164 := rfl
  have e3 : reqSize 0 100 = 100 := rfl
  refine ⟨s, h, ⟨⟨by omega, Or.inl (by omega), by omega, ?_⟩, ?_⟩, ⟨⟨by omega, Or.inr ⟨6, rfl⟩, ?_⟩, ?_⟩,
    ⟨by omega, Or.inl (by omega), ?_⟩, ?_⟩
  · rw [e1]; unfold PSize; omega
  · exact hm (reqSize 0 (3 * 100)) (by rw [e1]; omega)
  · rw [e2]; unfold PSize; omega
  · exact hm (reqSize (2 ^ 6) 100) (by rw [e2]; omega)
  · rw [e3]; unfold PSize; omega
  · exact hm (reqSize 0 100) (by rw [e3]; omega)

/-! ## Refutation of C31 -/

/-- C31 is false: `calloc(2^32, 2^32)` gives a block, though no block of 2^64 bytes exists. -/
theorem C31_refuted : ∃ C s s' r, PReach C (fun _ => True) s ⟨[], []⟩ ∧
    posixCalloc C 0 s 0 4294967296 4294967296 = .ok (s', r) ∧ r ≠ 0 ∧
    posixCalloc C 0 s 0 4294967296 4294967296 = posixCalloc C 0 s 0 1 0 ∧ W64 ≤ 4294967296 * 4294967296 := by
  obtain ⟨s, h, hl, hm⟩ := sample_threads (C := Config.default) (X := fun _ => True) (by decide) (fun _ _ _ => trivial)
  have e : posixCalloc Config.default 0 s 0 4294967296 4294967296 = posixCalloc Config.default 0 s 0 1 0 :=
    C31_wraps _ _ _ _ _ _
  have e1 : reqSize 0 (1 * 0) = 1 := rfl
  have v : PValid s ⟨[], []⟩ (.calloc 0 0 1 0) := ⟨by omega, Or.inl (by omega), by omega, by rw [e1]; unfold PSize; omega⟩
  obtain ⟨s', r, e', hr, _⟩ := C31_zeroed_partial (by decide) h v (hm (reqSize 0 (1 * 0)) (by rw [e1]; omega))
  exact ⟨_, s, s', r, h, e.trans e', hr, e, by omega⟩

/-! ## Sizes of blocks -/

theorem PBase.getSize {s : PS} {H : List Gh} {L : List (Nat × Nat)} {P : Res} (B : PBase s H L P) {i : Nat} {g : Gh}
    (hg : H[i]? = some g) {k : Ck} (hk : g.A.Used k) : posixGetSize s.w.mem k.uptr = .ok (k.addr + k.size - k.uptr) := by
  obtain ⟨cc, hcc, T⟩ := B.getH hg
  have W := T.ch.wf
  have hge := W.uptr_ge k
  have hroom := T.ch.room k hk
  have hr := W.has_range hk.1
  obtain ⟨g1, g2, g3⟩ := getChunkUnpadded_used W T.ch.mem hk
  have g1' : getChunkUnpadded s.w.mem k.uptr = .ok (k.addr + 15) := g1
  have g3' : hSize s.w.mem (vLarge (k.addr + 15)) = k.size := g3
  unfold posixGetSize
  rw [if_neg (by omega), g1', Outcome.ok_bind, if_neg (by omega), Outcome.pure_eq]
  unfold getUsableSize
  rw [g3', sub64_eq (a := k.uptr) (by omega) (by omega), sub64_eq (a := k.size) (by omega) (by omega)]
  congr 1
  unfold sub64 add64
  omega

/-- Size of a block that was just allocated in a chain without boundary. -/
theorem alloc_size {C : Config} {cl : Prop} {s : PS} {G : PSpec} (I : PInv Ω cl s G) {t n r : Nat} {c : Chain} {v : CS Light}
    (hc : s.chs[t]? = some c) (hn : n ≠ 0) (hsz : PSize n) (e : allocAlign (lightSource C) ⟨s.w, c⟩ 0 n = .ok (v, r)) :
    ∃ z, posixGetSize v.w.mem r = .ok z ∧
      ((calcChunkSize n ≤ 1048576 ∧ z + 16 < cutSize n + 32) ∨ (1048576 < calcChunkSize n ∧ z + 16 = blocSize n - 48)) := by
  obtain ⟨H, L, P, B, K⟩ := I
  obtain ⟨c', g, hc', hg, T⟩ := B.get (List.getElem?_eq_some_iff.1 hc).1
  obtain rfl : c' = c := Option.some.inj (hc'.symm.trans hc)
  have I := B.at hc hg
  have ha : alignedSize 0 n = n := by unfold alignedSize; rw [if_neg (by omega)]
  rcases salloc_ok (C := C) (b := 0) (n := n) I (Or.inl (by omega)) hn (by rw [ha]; exact hsz.1) (by rw [ha]; exact hsz.fits) with
    ⟨_, e2⟩ | ⟨v', d, A', L', e2, R⟩
  · rw [e2] at e
    cases e
  · rw [e2] at e
    obtain ⟨rfl, rfl⟩ := Prod.mk.inj (Outcome.ok.inj e)
    have S := R.step I (fun _ => True)
    have q' : QAt v' A' g.Q := S.queue I T.q (fun _ _ => trivial) (by rw [R.chain]; exact ⟨rfl, rfl⟩)
    have B' := B.step hc hg S q'
    have hg' := set_get (a := (⟨g.pb, A', g.Q⟩ : Gh)) hg
    have hdU : A'.Used d := (R.used d).2 (Or.inr rfl)
    refine ⟨_, B'.getSize hg' hdU, ?_⟩
    have hu : d.uptr = d.addr + 16 := by
      unfold Ck.uptr Ck.off
      rw [R.noPad (by omega)]
    have hd := (R.inv.ch.wf.has_wf hdU.1).ge
    have := R.kind
    rw [ha] at this
    omega

/-- Size of a block that was just allocated without boundary. -/
theorem malloc_size {C : Config} {cl : Prop} {s s' : PS} {G : PSpec} (I : PInv Ω cl s G) {t n r : Nat} (ht : t < s.chs.length)
    (hn : n ≠ 0) (hsz : PSize n) (e : posixMalloc C 0 s t n = .ok (s', r)) :
    ∃ z, posixGetSize s'.w.mem r = .ok z ∧
      ((calcChunkSize n ≤ 1048576 ∧ z + 16 < cutSize n + 32) ∨ (1048576 < calcChunkSize n ∧ z + 16 = blocSize n - 48)) := by
  have hc := List.getElem?_eq_getElem ht
  obtain ⟨u, e1, I1, _⟩ := purge_eff (C := C) I hc
  have hc1 := PS.put_get u ht
  unfold posixMalloc at e
  rw [PS.loc_eq hc, Outcome.ok_bind, e1, Outcome.ok_bind, if_neg hn] at e
  obtain ⟨⟨v, q⟩, e2, e⟩ := Outcome.bind_eq_ok e
  obtain ⟨rfl, rfl⟩ := Prod.mk.inj (Outcome.ok.inj e)
  exact alloc_size I1 hc1 hn hsz e2

/-- C44. A block allocated below the huge limit takes at most 62 bytes more than requested (16 of header included), when
at least 16 bytes are requested. -/
theorem C44_small_overhead {C : Config} {X : POp → Prop} {s s' : PS} {G : PSpec} (hf : C.reallocFactor ≠ 0)
    (h : PReach C X s G) {t n r : Nat} (ht : t < s.chs.length) (h1 : 16 ≤ n) (h2 : n ≤ 1048560)
    (e : posixMalloc C 0 s t n = .ok (s', r)) :
    ∃ z, posixGetSize s'.w.mem r = .ok z ∧ z < n + 47 := by
  obtain ⟨z, e1, h3⟩ := malloc_size (h.inv (cl := False) hf False.elim) ht (by omega)
    (by unfold PSize; omega) e
  refine ⟨z, e1, ?_⟩
  have hc : calcChunkSize n = n + 16 := by
    rw [calc_eq (by omega)]; omega
  unfold cutSize at h3
  omega

theorem allocAlign_huge {S : Source Light} {s : CS Light} {n : Nat} (h : s.c.dead = false) (hn : n ≠ 0)
    (hh : isHuge s.c n = true) : allocAlign S s 0 n = (do
      let (s, v) ← requestMem S s n
      return padAndReturn s v 0) := by
  unfold allocAlign
  rw [if_neg (show ¬ s.c.dead = true by rw [h]; simp), if_neg hn]
  have : (if 0 > 1 then add64 n 0 else n) = n := rfl
  simp only [this]
  rw [hh, if_pos rfl]

/-- C43 is false: a block of 2097104 bytes (2 MB less 48) is the same as one of 16 bytes less, and its size is that
one: the last 16 bytes of the block are the end mark of its bloc, and a resize does not copy them. -/
theorem C43_refuted {C : Config} {X : POp → Prop} {s : PS} {G : PSpec} (hf : C.reallocFactor ≠ 0) (h : PReach C X s G)
    {t : Nat} (ht : t < s.chs.length) (hm : HasMem s 2097088) :
    ∃ s' r, posixMalloc C 0 s t 2097104 = .ok (s', r) ∧ r ≠ 0 ∧ posixGetSize s'.w.mem r = .ok 2097088 := by
  have I := h.inv (cl := False) hf False.elim
  have hp : PSize 2097088 := by unfold PSize; omega
  have hr : reqSize 0 2097088 = 2097088 := rfl
  rcases memalign_op (C := C) (b := 0) (n := 2097088) I ht (Or.inl (by omega)) (by rw [hr]; exact hp) False.elim with
    ⟨h1, _⟩ | ⟨s', r, e, hr0, _⟩
  · exact absurd hm h1
  have e : posixMalloc C 0 s t 2097088 = .ok (s', r) := e
  have heq : posixMalloc C 0 s t 2097104 = posixMalloc C 0 s t 2097088 := by
    have hc := List.getElem?_eq_getElem ht
    obtain ⟨u, e1, I1, _⟩ := purge_eff (C := C) I hc
    have hc1 := PS.put_get u ht
    obtain ⟨H, L, P, B, K⟩ := I1
    obtain ⟨c', g, hc', hg, T⟩ := B.get (List.getElem?_eq_some_iff.1 hc1).1
    obtain rfl : c' = u.c := Option.some.inj (hc'.symm.trans hc1)
    have c1 : calcChunkSize 2097104 = 2097120 := by rw [calc_eq (by omega)]; omega
    have c2 : calcChunkSize 2097088 = 2097104 := by rw [calc_eq (by omega)]; omega
    have h1 : isHuge u.c 2097104 = true := by
      unfold isHuge; rw [c1, T.ch.src]; simp
    have h2 : isHuge u.c 2097088 = true := by
      unfold isHuge; rw [c2, T.ch.src]; simp
    have q : ∀ v : CS Light, requestMem (lightSource C) v 2097104 = requestMem (lightSource C) v 2097088 := by
      intro v
      unfold requestMem
      rw [requestSize_eq (by omega), requestSize_eq (by omega)]
      rfl
    have : allocAlign (lightSource C) u 0 2097104 = allocAlign (lightSource C) u 0 2097088 := by
      rw [allocAlign_huge T.ch.dead (by omega) h1, allocAlign_huge T.ch.dead (by omega) h2, q]
    have key : ∀ n, n ≠ 0 → posixMalloc C 0 s t n = (do
        let (u, r) ← allocAlign (lightSource C) u 0 n
        return (s.put t u, r)) := by
      intro n hn
      unfold posixMalloc
      rw [PS.loc_eq hc, Outcome.ok_bind, e1, Outcome.ok_bind, if_neg hn]
      rfl
    rw [key _ (by omega), key _ (by omega), this]
  obtain ⟨z, e2, h3⟩ := malloc_size I ht (by omega) hp e
  refine ⟨s', r, heq.trans e, hr0, ?_⟩
  have c2 : calcChunkSize 2097088 = 2097104 := by rw [calc_eq (by omega)]; omega
  rw [e2]
  congr 1
  rw [c2] at h3
  unfold blocSize at h3
  omega

/-! ## Refutation of C24 -/

/-- Free by the owner of a block of between 1 MB and 2 MB whose chunk does not cover a bloc: nothing happens. -/
theorem free_leak {C : Config} {cl : Prop} {s : PS} {G : PSpec} (I : PInv Ω cl s G) {t z : Nat} {l : PBlock} (hl : l ∈ G.live)
    (ho : l.owner = t) (hpl : l.plain = true) (hz : posixGetSize s.w.mem l.ptr = .ok z) (h1 : 1048560 < z + 16)
    (h2 : (z + 16) % MB2 ≠ MB2 - 48) :
    ∃ s', posixFree C s t l.ptr = .ok s' ∧ 0 < s'.w.src.counter := by
  obtain ⟨H, L, P, B, K⟩ := id I
  obtain ⟨g, k, hg, hk, hkQ, hp, _, hst⟩ := K.live l hl
  rw [ho] at hg
  obtain ⟨c0, hc, T⟩ := B.getH hg
  have ht := (List.getElem?_eq_some_iff.1 hc).1
  obtain ⟨u, e1, I1, _⟩ := purge_eff (C := C) I hc
  obtain ⟨u', A', L', e1', Pu, q'⟩ := purge_ok (C := C) (B.at hc hg) T.q
  obtain rfl : u = u' := Outcome.ok.inj (e1.symm.trans e1')
  have hc1 := PS.put_get u ht
  have B1 := B.step hc hg Pu.step q'
  have hk1 := Pu.step.keep k hk hkQ
  have hu : k.uptr = k.addr + 16 := by
    unfold Ck.uptr Ck.off
    rw [hst hpl]
  have hzk : z + 16 = k.size := by
    have := B.getSize hg hk
    rw [hp, hz] at this
    have := Outcome.ok.inj this
    have := (T.ch.wf.has_wf hk.1).ge
    omega
  have hz1 : posixGetSize (s.put t u).w.mem l.ptr = .ok z := by
    have := B1.getSize (set_get (a := (⟨g.pb, A', []⟩ : Gh)) hg) hk1
    rw [hp] at this
    rw [this]
    congr 1
    have := (T.ch.wf.has_wf hk.1).ge
    omega
  have hl1 : l ∈ (G.drain t).live := hl
  obtain ⟨R, b, c, e2, hb, e3, hcz, hc2, e4, hts, I2, hpz⟩ := lookup_eff I1 hl1
  obtain ⟨H2, L2, P2, B2, K2⟩ := I2
  obtain ⟨g2, k2, hg2, hk2, _, hp2, _, hst2⟩ := K2.live l hl1
  have hu2 : k2.uptr = k2.addr + 16 := by
    unfold Ck.uptr Ck.off
    rw [hst2 hpl]
  obtain ⟨c2, hcc2, T2⟩ := B2.getH hg2
  have hz2 : z + 16 = k2.size := by
    have h3 := B2.getSize hg2 hk2
    have h4 : posixGetSize ((s.put t u).setRegs R).w.mem k2.uptr = .ok z := by rw [hp2]; exact hz1
    rw [h4] at h3
    have := Outcome.ok.inj h3
    have := (T2.ch.wf.has_wf hk2.1).ge
    omega
  have hleak : Leak k2 := ⟨by omega, by omega⟩
  unfold posixFree
  rw [PS.loc_eq hc, Outcome.ok_bind, e1, Outcome.ok_bind]
  simp only
  rw [if_neg hpz, e2, Outcome.ok_bind]
  simp only
  rw [if_neg hb]
  have e3' : readLE (s.put t u).w.mem (b + 16) 8 = c.addr := e3
  rw [e3', if_neg hcz]
  have e4' : PS.chainAt { w := { (s.put t u).w with regs := R }, chs := (s.put t u).chs } c.addr = .ok l.owner := e4
  rw [e4', Outcome.ok_bind]
  have hc3 : ((s.put t u).setRegs R).chs[l.owner]? = some c := hc2
  have e5 := PS.loc_eq hc3
  have e5' : PS.loc { w := { (s.put t u).w with regs := R }, chs := (s.put t u).chs } l.owner =
    .ok ⟨((s.put t u).setRegs R).w, c⟩ := e5
  rw [e5', Outcome.ok_bind]
  simp only
  have hcu : c = u.c := by
    rw [ho] at hc2
    exact Option.some.inj (hc2.symm.trans hc1)
  rw [if_pos (Or.inr (by rw [hcu]))]
  obtain ⟨v, A3, L3, e6, F⟩ := sfree_ok (C := C) (B2.at hc3 hg2) hk2
  rw [hp2] at e6
  rw [e6, Outcome.ok_bind]
  refine ⟨_, rfl, ?_⟩
  obtain ⟨rfl, _⟩ := F.kept hleak
  show 0 < ((s.put t u).setRegs R).w.src.counter
  rw [B2.lin.cnt]
  obtain ⟨d, hd, _⟩ := seg_of_has T2.ch.wf hk2.1
  have := List.length_pos_of_mem (mem_shapes.2 ⟨_, g2, hg2, hd⟩)
  omega

/-- A bloc without block. -/
theorem lost_bloc : ∃ s, PReach Config.default (fun _ => True) s ⟨[], []⟩ ∧ 0 < s.w.src.counter := by
  have hf : Config.default.reallocFactor ≠ 0 := by decide
  have hp : PSize 1048560 := by unfold PSize; omega
  obtain ⟨s, r, h, hl, hr, s0, h0, hl0, hm0, e0⟩ := sample_block (C := Config.default) (X := fun _ => True) hf
    (fun _ _ _ => trivial) (n := 1048560) (by omega) hp (by omega) trivial
  obtain ⟨z, hz, h3⟩ := malloc_size (h0.inv (cl := False) hf False.elim) (by omega) (by omega) hp e0
  have I := h.inv (cl := False) hf False.elim
  have hc : calcChunkSize 1048560 = 1048576 := by rw [calc_eq (by omega)]; omega
  have hmem : (⟨0, r, 1048560, true⟩ : PBlock) ∈ [(⟨0, r, 1048560, true⟩ : PBlock)] := List.mem_singleton.2 rfl
  obtain ⟨z', hz', hge, _⟩ := getSize_op I hmem
  obtain rfl : z = z' := Outcome.ok.inj (hz.symm.trans hz')
  have hge : 1048560 ≤ z := hge
  unfold cutSize at h3
  rw [hc] at h3
  obtain ⟨s', e, hcnt⟩ := free_leak (C := Config.default) I hmem rfl rfl hz' (by omega) (by omega)
  have v : PValid s ⟨[⟨0, r, 1048560, true⟩], []⟩ (.free 0 r) := ⟨by omega, Or.inr ⟨_, hmem, rfl⟩⟩
  have e' : pexec Config.default s (.free 0 r) = .ok (s', 0) := by
    have e : posixFree Config.default s 0 r = .ok s' := e
    unfold pexec; simp only; rw [e]; rfl
  have h' := PReach.step h v trivial e'
  have hG : PSpec.after ⟨[⟨0, r, 1048560, true⟩], []⟩ (.free 0 r) 0 = ⟨[], []⟩ := by
    simp [PSpec.after, PSpec.del, PSpec.drain]
  rw [hG] at h'
  exact ⟨s', h', hcnt⟩

/-- C24 is false: after `malloc(1048560)` and `free`, no block is left but the source has not got its bloc back. -/
theorem C24_refuted : ∃ C s, PReach C (fun _ => True) s ⟨[], []⟩ ∧ 0 < s.w.src.counter := ⟨_, lost_bloc⟩

end MpcAlloc
