import Verif.PropsConcRealloc

/-
Property C72, what is false: a realloc that moves its block is not one step. While it has both blocks, another thread
may get NULL although it would get memory before the realloc and after it.
-/

namespace MpcAlloc
namespace CR

variable {σ : Type} {S : Source σ} {C : Config} {pb : Nat} {B : List (Nat × Nat)} {s0 s : CS σ} {L0 L : List Block}
  {rs : List Nat} {A : AHeap} {k : KS σ} {t u : Nat} {r r' : RS σ}

/-! ### An allocation that runs alone -/

/-- Effect of a whole allocation on the fields that matter here. -/
structure Alloced (k : KS σ) (t b n : Nat) (k' : KS σ) (q : Nat) : Prop where
  pc : ∀ u, k'.pc u = if u = t then .idle else k.pc u
  log : k'.log = k.log ++ [.alloc b n]
  ret : ∀ j, k'.ret j = if j = k.log.length then some q else k.ret j
  lock : k'.s.c.lock = false
  live : k'.live = account k.live (.alloc b n) q

theorem pad_lock (s : CS σ) (v b : Nat) : (if v = 0 then (s, 0) else padAndReturn s v b).1.c.lock = s.c.lock := by
  split
  · rfl
  · unfold padAndReturn
    split <;> rfl

theorem kalloc_run (hf : C.reallocFactor ≠ 0) (h0 : MpcAlloc.Reach S C pb s0 L0 B) (H : KInv S C pb B B s0 L0 k s rs L A)
    {b n : Nat} (hp : k.pc t = .allocSwap b n) (hl : k.s.c.lock = false) :
    ∃ k1 k2 k3 k4 q, kstep S C k t (.free 0) = .ok k1 ∧ kstep S C k1 t (.free 0) = .ok k2 ∧
      kstep S C k2 t (.free 0) = .ok k3 ∧ kstep S C k3 t (.free 0) = .ok k4 ∧
      k1.pc t ≠ .idle ∧ k2.pc t ≠ .idle ∧ k3.pc t ≠ .idle ∧ rankOf (k3.pc t) = k.log.length ∧ Alloced k t b n k4 q := by
  have e1 : kstep S C k t (.free 0) = .ok ((k.setLock true).goto t (.allocCrit b n)) := by
    unfold kstep
    rw [hp]
    simp only
    rw [hl]
    rfl
  obtain ⟨k1', e1', s1, rs1, L1, A1, H1, _⟩ := H.step (t := t) (act := .free 0) hf h0
    (fun h => by rw [hp] at h; cases h)
  rw [e1] at e1'
  cases e1'
  obtain ⟨k2, e2, _⟩ := H1.step (t := t) (act := .free 0) hf h0 (fun h => by rw [goto_pc] at h; cases h)
  have e2' := e2
  unfold kstep at e2'
  rw [goto_pc] at e2'
  simp only at e2'
  obtain ⟨⟨s2, v⟩, _, e2'⟩ := Outcome.bind_eq_ok e2'
  cases e2'
  have e3 : kstep S C ((({ (k.setLock true).goto t (.allocCrit b n) with s := s2 } : KS σ).enter (.alloc b n)).goto t
      (.allocUnlock b n v k.log.length)) t (.free 0) = .ok (((((({ (k.setLock true).goto t (.allocCrit b n) with s := s2 } :
        KS σ).enter (.alloc b n)).goto t (.allocUnlock b n v k.log.length)).setLock false).goto t
        (.allocPad b n v k.log.length))) := by
    unfold kstep
    rw [goto_pc]
  refine ⟨_, _, _, _, (if v = 0 then (s2, 0) else padAndReturn ({ s2 with c := { s2.c with lock := false } }) v b).2, e1, e2,
    e3, (by unfold kstep; rw [goto_pc]), (by rw [goto_pc]; exact fun h => by cases h),
    (by rw [goto_pc]; exact fun h => by cases h), (by rw [goto_pc]; exact fun h => by cases h), (by rw [goto_pc]; rfl), ?_, ?_, ?_, ?_, ?_⟩
  · intro u
    by_cases hu : u = t
    · rw [hu, if_pos rfl, goto_pc]
    · simp only [KS.goto, KS.return, KS.give, KS.setLock, KS.enter, if_neg hu]
  · rfl
  · intro j
    show (if j = k.log.length then some _ else k.ret j) = _
    by_cases hv : v = 0
    · simp only [hv, if_true]
    · simp only [hv, if_false]
      rfl
  · show (if v = 0 then (_, 0) else padAndReturn _ v b).1.c.lock = false
    rw [pad_lock]
    rfl
  · by_cases hv : v = 0
    · simp only [hv, if_true]
      rfl
    · simp only [hv, if_false]
      rfl

/-- A thread allocates while no other one moves. -/
theorem alloc_alone (hf : C.reallocFactor ≠ 0) (h0 : MpcAlloc.Reach S C pb s0 L0 B) (hts : s0.c.threadSafe = true)
    (h : Reach S C B s0 L0 r) (hi : r.Idle t) (hl : r.k.s.c.lock = false) {b n : Nat} (hb : GoodBound b) (hn : n ≠ 0)
    (hsz : SizeOK B b n) :
    ∃ r' q, Reach S C B s0 L0 r' ∧ (∀ u, r'.pc u = r.pc u) ∧ Alloced r.k t b n r'.k q := by
  have go : ∀ {r : RS σ} {k' : KS σ}, Reach S C B s0 L0 r → r.pc t = .out → r.k.pc t ≠ .idle →
      kstep S C r.k t (.free 0) = .ok k' → Reach S C B s0 L0 (r.goto k' t .out) := by
    intro r k' h hp hk e
    refine h.step (t := t) (a := .plain (.free 0)) (fun h => absurd h.2 hk) ?_
    unfold rstep
    rw [hp]
    simp only
    rw [if_neg (by rw [idleB_iff]; exact hk), e, Outcome.ok_bind, Outcome.pure_eq]
  have R1 : Reach S C B s0 L0 (r.goto (r.k.goto t (.allocSwap b n)) t .out) := by
    refine h.step (t := t) (a := .plain (.alloc b n)) (fun _ => ⟨hb, hsz⟩) ?_
    unfold rstep
    rw [hi.1]
    simp only
    rw [if_pos (idleB_iff.2 hi.2)]
    unfold rstart
    simp only
    have : kstep S C r.k t (.alloc b n) = .ok (r.k.goto t (.allocSwap b n)) := by
      unfold kstep
      rw [hi.2]
      unfold kstart
      simp only
      rw [if_neg hn]
    rw [this, Outcome.ok_bind, Outcome.pure_eq]
  have hg : ∀ (r : RS σ) (k : KS σ), (r.goto k t .out).pc t = .out := fun r k => if_pos rfl
  obtain ⟨s, rs, L, A, H⟩ := reach_inv hf h0 hts R1
  obtain ⟨k1, k2, k3, k4, q, e1, e2, e3, e4, n1, n2, n3, _, E⟩ := kalloc_run (t := t) hf h0 H.ki (goto_pc _ _ _) hl
  have R2 := go R1 (hg _ _) (by show (r.k.goto t _).pc t ≠ _; rw [goto_pc]; exact fun h => by cases h) e1
  have R3 := go R2 (hg _ _) n1 e2
  have R4 := go R3 (hg _ _) n2 e3
  have R5 := go R4 (hg _ _) n3 e4
  refine ⟨_, q, R5, ?_, ?_, E.log, E.ret, E.lock, E.live⟩
  · intro u
    by_cases hu : u = t
    · rw [hu, hg, hi.1]
    · simp only [RS.goto, if_neg hu]
  · intro u
    refine (E.pc u).trans ?_
    by_cases hu : u = t
    · rw [if_pos hu, if_pos hu]
    · rw [if_neg hu, if_neg hu]
      exact if_neg hu

/-- The allocation of a realloc, while no other thread moves. -/
theorem inner_alone (hf : C.reallocFactor ≠ 0) (h0 : MpcAlloc.Reach S C pb s0 L0 B) (hts : s0.c.threadSafe = true)
    (h : Reach S C B s0 L0 r) {c : Call} {old : Nat} (hp : r.pc t = .alloc c old) (hk : r.k.pc t = .allocSwap c.b c.n)
    (hl : r.k.s.c.lock = false) :
    ∃ r' q, Reach S C B s0 L0 r' ∧ (∀ u, r'.pc u = if u = t then .copy c old q 0 else r.pc u) ∧
      Alloced r.k t c.b c.n r'.k q := by
  have go : ∀ {r : RS σ} {k' : KS σ}, Reach S C B s0 L0 r → r.pc t = .alloc c old → r.k.pc t ≠ .idle → k'.pc t ≠ .idle →
      kstep S C r.k t (.free 0) = .ok k' → Reach S C B s0 L0 (r.goto k' t (.alloc c old)) := by
    intro r k' h hp hk hk' e
    refine h.step (t := t) (a := .plain (.free 0)) (fun h => absurd h.2 hk) ?_
    unfold rstep
    rw [hp]
    simp only
    rw [e, Outcome.ok_bind, if_neg (by rw [idleB_iff]; exact hk'), Outcome.pure_eq]
  have hg : ∀ (r : RS σ) (k : KS σ) (P : Pc), (r.goto k t P).pc t = P := fun r k P => if_pos rfl
  obtain ⟨s, rs, L, A, H⟩ := reach_inv hf h0 hts h
  obtain ⟨k1, k2, k3, k4, q, e1, e2, e3, e4, n1, n2, n3, hr, E⟩ := kalloc_run (t := t) hf h0 H.ki hk hl
  have R2 := go h hp (by rw [hk]; exact fun h => by cases h) n1 e1
  have R3 := go R2 (hg _ _ _) n1 n2 e2
  have R4 := go R3 (hg _ _ _) n2 n3 e3
  obtain ⟨r5, e5⟩ := C72_no_failure_partial (t := t) (a := .plain (.free 0)) hf h0 hts R4 (fun h => absurd h.2 n3)
  have R5 := R4.step (fun h => absurd h.2 n3) e5
  unfold rstep at e5
  rw [hg] at e5
  simp only at e5
  obtain ⟨k4', e4', e5⟩ := Outcome.bind_eq_ok e5
  rw [show (((r.goto k1 t (.alloc c old)).goto k2 t (.alloc c old)).goto k3 t (.alloc c old)).k = k3 from rfl, e4] at e4'
  cases e4'
  rw [if_pos (idleB_iff.2 (by rw [E.pc, if_pos rfl]))] at e5
  rcases ite_ok e5 with ⟨_, e5⟩ | ⟨_, e5⟩
  · cases e5
  rw [show (((r.goto k1 t (.alloc c old)).goto k2 t (.alloc c old)).goto k3 t (.alloc c old)).k = k3 from rfl, hr, E.ret,
    if_pos rfl] at e5
  cases e5
  refine ⟨_, q, R5, ?_, E.pc, E.log, E.ret, E.lock, E.live⟩
  intro u
  by_cases hu : u = t
  · rw [hu, hg, if_pos rfl]
    rfl
  · simp only [RS.goto, if_neg hu]

/-! ### One call after the other -/

/-- After a realloc that does not keep its block, a request that fits into the chunk of the old block is served. -/
theorem realloc_then {S : Source σ} {s : CS σ} {d : Ck} (H : HInv pb s L B A) (hd : A.Used d) (hp : d.st = .used none)
    {n m : Nat} (hn : n ≠ 0) (hsz : SizeOK B 0 n) (hnk : ¬ ReallocKeep C d n) (hf : C.reallocFactor ≠ 0)
    (hm : m ≠ 0) (hszm : SizeOK B 0 m) (hfit : m + 16 ≤ d.size) (hsmall : ∀ y ∈ B, y.2 ≤ MB2) :
    ∃ s1 q s2 q', exec S C s (.realloc d.uptr 0 n) = .ok (s1, q) ∧ exec S C s1 (.alloc 0 m) = .ok (s2, q') ∧ q' ≠ 0 ∧
      q ≠ d.uptr := by
  have hge := (H.wf.has_wf hd.1).ge
  obtain ⟨q, A', hR, W', _, hsh, hs⟩ := realloc_ok S C H.wf hd (hook := 0) (n := n) (Or.inl (by omega)) hn
    (sizeOK_aligned H.wf H.bufs hsz) hf (reallocSafe_unpadded _ hp (by omega)) s.c.noMerge
  obtain ⟨h', e, M, _⟩ := hs s H.inv H.src rfl
  have hcov : (∃ f, A'.Has f ∧ f.st = .free ∧ f.addr ≤ d.addr ∧ d.addr + d.size ≤ f.addr + f.size) ∧ q ≠ d.uptr := by
    cases hR with
    | keep h => exact absurd h hnk
    | fail _ _ h =>
      have := H.wf.uptr_ge d
      exact ⟨h.cover, by omega⟩
    | move _ G h =>
      refine ⟨h.cover, fun h => ?_⟩
      have h1 := (G.used d).2 (Or.inl hd)
      have h2 := (G.used _).2 (Or.inr rfl)
      have := G.wf.uptr_inj h2.1 h1.1 h
      rw [this] at G
      exact G.fresh hd
  obtain ⟨⟨f, hfA, hff, hf1, hf2⟩, hq⟩ := hcov
  have hB' : A'.shape = B := hsh.trans H.bufs
  have hfs : f.size ≤ MB2 := by
    obtain ⟨g, hg, hfg⟩ := hfA
    have h1 := (W'.seg g hg).bounds hfg
    have h2 := hsmall (g.base, g.size) (by rw [← hB']; exact List.mem_map.2 ⟨g, hg, rfl⟩)
    simp only at h2
    omega
  obtain ⟨q', A2, hA, _, hs2⟩ := alloc_ok S W' (b := 0) (n := m) (Or.inl (by omega)) (sizeOK_aligned W' hB' hszm)
  obtain ⟨h2, e2, _⟩ := hs2 (s.setHeap h') (H.inv.setHeap M hsh) H.src
  refine ⟨_, q, _, q', e, e2, ?_, hq⟩
  rcases hA with ⟨_, _, hno⟩ | ⟨_, _, _, _, h⟩
  · exfalso
    have h1 := hno hm f hfA hff hfs
    have h3 : alignedSize 0 m = m := rfl
    have h4 := (H.wf.has_range hd.1)
    rw [h3, calc_eq (by omega)] at h1
    omega
  · exact h

theorem one_block_of {X sz b n : Nat} {s : CS Unit} (R : MpcAlloc.Reach S0 Config.default 4096 s [] [(X, sz)])
    (hnm : s.c.noMerge = false) (hb : GoodBound b) (hn : n ≠ 0)
    (hsz : n + (if 1 < b then b else 0) + 64 ≤ sz) (hm : sz ≤ MB2 + 48) :
    ∃ s' A0 A d, OneBlock X sz b n s s' A0 A d := by
  obtain ⟨A, H⟩ := MpcAlloc.reach_inv default_factor R
  have hseg := H.one_seg hnm
  have hF : A.Has ⟨X + 32, sz - 48, .free⟩ := ⟨_, by rw [hseg]; exact List.mem_singleton.2 rfl, by simp⟩
  obtain ⟨s', A', c, d, e', G, hne, R', H', g1⟩ := alloc_some default_factor R H hb hn hF rfl
    (by simp only; omega) (by simp only; omega)
  have hc : c = ⟨X + 32, sz - 48, .free⟩ := by
    obtain ⟨g, hg, hcg⟩ := G.has
    rw [hseg] at hg
    rw [List.mem_singleton.1 hg] at hcg
    simpa using hcg
  subst hc
  refine ⟨s', A, A', d, R, H, hnm, e', R', H', g1.trans hnm, G, (G.used d).2 (Or.inr rfl), ?_⟩
  intro c hc
  rcases (G.used c).1 hc with h | h
  · obtain ⟨l, hl, _⟩ := H.live.all c h
    simp at hl
  · exact h

/-- Results of the calls one after the other, in a chain with one buffer of 4096 bytes. -/
theorem sequential {s : CS Unit} (R : MpcAlloc.Reach S0 Config.default 4096 s [] [(8192, 4096)])
    (hnm : s.c.noMerge = false) :
    ∃ s1 p, p ≠ 0 ∧ exec S0 Config.default s (.alloc 0 1000) = .ok (s1, p) ∧
      (∃ s2 q s3, exec S0 Config.default s1 (.alloc 0 2500) = .ok (s2, q) ∧
        exec S0 Config.default s2 (.alloc 0 800) = .ok (s3, 0)) ∧
      (∃ s2 q s3 q', exec S0 Config.default s1 (.realloc p 0 2500) = .ok (s2, q) ∧
        exec S0 Config.default s2 (.alloc 0 800) = .ok (s3, q') ∧ q' ≠ 0 ∧ q ≠ p) ∧
      (∃ s2 q, exec S0 Config.default s1 (.alloc 0 800) = .ok (s2, q) ∧ q ≠ 0) := by
  have hb0 : GoodBound 0 := Or.inl (by omega)
  obtain ⟨s1, A0, A1, d, O⟩ := one_block_of (b := 0) (n := 1000) R hnm hb0 (by omega) (by simp) (by omega)
  have hs := O.size (by simp)
  simp only [Nat.not_lt_zero, if_false] at hs
  have hd0 : d.uptr ≠ 0 := by
    have := O.inv.wf.uptr_ge d
    omega
  refine ⟨s1, d.uptr, hd0, O.call, ?_, ?_, ?_⟩
  · obtain ⟨s2, A2, d2, e2, G, _, R2, H2, _⟩ := O.second (b' := 0) (n' := 2500) hb0 (by omega) (by omega) (by simp; omega)
    have hov : ValidOp 4096 [⟨d2.uptr, 2500, decide (0 ≤ 1)⟩, ⟨d.uptr, 1000, decide (0 ≤ 1)⟩] [(8192, 4096)] (.alloc 0 800) :=
      ⟨hb0, Or.inl (by simp)⟩
    obtain ⟨q, A3, h3⟩ := step_ok S0 Config.default default_factor H2.wf H2.bufs H2.live hov _ H2.noAdj
    obtain ⟨s3, e3, _⟩ := h3 s2 H2 rfl trivial
    refine ⟨s2, d2.uptr, s3, e2, ?_⟩
    obtain ⟨A', hA, _⟩ := H2.alloc S0 hov.1 hov.2 (show allocAlign S0 s2 0 800 = .ok (s3, q) from e3)
    rcases hA with ⟨h, _⟩ | ⟨c, d3, G3, _⟩
    · subst h; exact e3
    · exfalso
      have h1 := G3.min
      have h2 := G3.le
      have h4 := G.min
      have e8 : alignedSize 0 800 = 800 := rfl
      have e25 : alignedSize 0 2500 = 2500 := rfl
      rw [e8, calc_eq (by omega)] at h1
      rw [e25, calc_eq (by omega)] at h4
      rcases (G.rest c G3.free).1 G3.has with ⟨h5, h6⟩ | ⟨_, h5⟩
      · exact h6 ((O.free G3.free).1 h5).2
      · rw [h5] at h2
        simp only at h2
        omega
  · exact realloc_then O.inv O.used (O.got.noPad (by omega)) (by omega) (Or.inl (by simp)) (by unfold ReallocKeep; omega)
      default_factor (by omega) (Or.inl (by simp)) (by omega) (by simp)
  · obtain ⟨s2, A2, d2, e2, G, hne, _⟩ := O.second (b' := 0) (n' := 800) hb0 (by omega) (by omega) (by simp; omega)
    exact ⟨s2, d2.uptr, e2, hne⟩

/-- C72: a realloc is not one step for the other threads. In a chain with a buffer of 4096 bytes thread 0 has a block of
1000 bytes, which it resizes to 2500 bytes. Thread 1 asks for 800 bytes meanwhile and gets NULL. It would get
a block if it asked before the realloc, and if it asked after it. -/
theorem C72_refuted_atomic : ∃ (s : CS Unit) (r : RS Unit) (p : Nat) (c : Call),
    MpcAlloc.Reach S0 Config.default 4096 s [] [(8192, 4096)] ∧ s.c.threadSafe = true ∧
    Reach S0 Config.default [(8192, 4096)] s [] r ∧ callOf (r.pc 0) = some c ∧ c.l = ⟨p, 1000, true⟩ ∧ c.b = 0 ∧ c.n = 2500 ∧
    r.Idle 1 ∧ r.k.log = [.alloc 0 1000, .alloc 0 2500, .alloc 0 800] ∧ r.k.ret 0 = some p ∧ r.k.ret 2 = some 0 ∧
    (∃ q q' s' L', Run S0 Config.default 4096 s [] [(8192, 4096)] [.alloc 0 1000, .realloc p 0 2500, .alloc 0 800]
      [p, q, q'] s' L' [(8192, 4096)] ∧ q' ≠ 0) ∧
    (∃ q' s' L', Run S0 Config.default 4096 s [] [(8192, 4096)] [.alloc 0 1000, .alloc 0 800]
      [p, q'] s' L' [(8192, 4096)] ∧ q' ≠ 0) := by
  obtain ⟨s, R, hnm, hts⟩ := fresh_reach_ts sampleBuf_4096 true false
  obtain ⟨s1, p, hp, e1, ⟨sa, qa, sb, ea, eb⟩, ⟨sc, qc, sd, qd, ec, ed, hqd, hqc⟩, ⟨se, qe, ee, hqe⟩⟩ := sequential R hnm
  have hb0 : GoodBound 0 := Or.inl (by omega)
  have hbuf : ∀ n, n ≤ 2500 → SizeOK [(8192, 4096)] 0 n := fun n _ => Or.inl (by split <;> omega)
  have R0 : Reach S0 Config.default [(8192, 4096)] s [] _ := .init
  have hlk : s.c.lock = false := by
    obtain ⟨A, H⟩ := MpcAlloc.reach_inv default_factor R
    exact H.inv.lock
  -- the block of thread 0
  obtain ⟨r1, p', R1, g1, E1⟩ := alloc_alone (t := 0) (b := 0) (n := 1000) default_factor R hts R0 ⟨rfl, rfl⟩ hlk hb0 (by omega)
    (hbuf _ (by omega))
  have hlog1 : r1.k.log = [.alloc 0 1000] := E1.log
  have hpp : p' = p := by
    obtain ⟨s', rs, L, h1, h2, _⟩ := C72_linearizable_partial default_factor R hts R1
    rw [hlog1] at h1
    have h3 := h2 0 p' (by rw [E1.ret]; exact if_pos rfl)
    cases h1 with
    | cons _ _ e _ =>
      rw [e1] at e
      have := (Prod.mk.inj (Outcome.ok.inj e)).2
      simp only [List.getElem?_cons_zero, Option.some.injEq] at h3
      rw [← h3, this]
  subst hpp
  have hlive1 : r1.k.live = [⟨p', 1000, true⟩] := by
    rw [E1.live]
    simp [account, hp]
  have hmem : (⟨p', 1000, true⟩ : Block) ∈ r1.k.live := by rw [hlive1]; exact List.mem_cons_self
  have hpc1 : ∀ u, r1.pc u = .out := g1
  have hk1 : ∀ u, r1.k.pc u = .idle := by
    intro u
    rw [E1.pc]
    split <;> rfl
  -- the realloc begins
  have R2 := R1.step (t := 0) (a := .realloc p' 0 2500)
    (fun _ => ⟨hb0, hbuf 2500 (by omega), Or.inr ⟨_, hmem, rfl, fun u => by rw [hpc1]; simp [held], Or.inr (Or.inl rfl)⟩⟩)
    (r' := r1.goto (begin r1.k p' 0 2500).1 0 (.read (begin r1.k p' 0 2500).2)) (by
      unfold rstep
      rw [hpc1]
      simp only
      rw [if_pos (idleB_iff.2 (hk1 0))]
      unfold rstart
      simp only
      rw [if_neg (by omega), if_neg hp, if_neg (by omega)])
  have hbl : (begin r1.k p' 0 2500).2.l = ⟨p', 1000, true⟩ := by
    show blockAt r1.k p' = _
    unfold blockAt
    rw [hlive1]
    simp
  -- the decision
  have hni : ¬ (r1.goto (begin r1.k p' 0 2500).1 0 (.read (begin r1.k p' 0 2500).2)).Idle 0 := by
    rintro ⟨h, _⟩
    cases h
  obtain ⟨r3, e3⟩ := C72_no_failure_partial (t := 0) (a := .plain (.free 0)) default_factor R hts R2 (fun h => absurd h hni)
  have R3 := R2.step (fun h => absurd h hni) e3
  have h3 : ∃ old, r3 = r1.goto ((begin r1.k p' 0 2500).1.goto 0 (.allocSwap 0 2500)) 0 (.alloc (begin r1.k p' 0 2500).2 old) := by
    obtain ⟨s2, rs2, L2, A2, H2⟩ := reach_inv default_factor R hts R2
    have hP := H2.pcs 0
    have hpc2 : (r1.goto (begin r1.k p' 0 2500).1 0 (.read (begin r1.k p' 0 2500).2)).pc 0 =
      .read (begin r1.k p' 0 2500).2 := rfl
    rw [hpc2] at hP
    obtain ⟨_, ho⟩ := hP
    obtain ⟨old, d, hd, hdp, _⟩ := H2.ki.src_of ho.live ho.grow
    obtain ⟨v, x1, x2, x3⟩ := getChunk_used H2.ki.wf H2.ki.memK hd
    rw [hdp] at x1
    unfold rstep at e3
    rw [hpc2] at e3
    simp only at e3
    obtain ⟨v', y1, e3⟩ := Outcome.bind_eq_ok e3
    have hv : v' = v := Outcome.ok.inj (y1.symm.trans x1)
    rcases ite_ok e3 with ⟨h, _⟩ | ⟨_, e3⟩
    · exact absurd (hv.symm.trans h) x2
    obtain ⟨w, _, e3⟩ := Outcome.bind_eq_ok e3
    rcases ite_ok e3 with ⟨_, e3⟩ | ⟨_, e3⟩
    · cases e3
    rcases ite_ok e3 with ⟨_, e3⟩ | ⟨_, e3⟩
    · exfalso
      have e3' := Outcome.ok.inj e3
      obtain ⟨s', rs, L, h1, h2, _⟩ := C72_linearizable_partial default_factor R hts R3
      have hl3 : r3.k.log = [.alloc 0 1000, .realloc p' 0 2500] := by
        rw [← e3']
        show r1.k.log ++ [.realloc (begin r1.k p' 0 2500).2.l.ptr 0 2500] = _
        rw [hlog1, hbl]
        rfl
      have hr3 : r3.k.ret 1 = some p' := by
        rw [← e3']
        show (if 1 = r1.k.log.length then some (begin r1.k p' 0 2500).2.l.ptr else _) = _
        rw [hlog1, hbl]
        rfl
      rw [hl3] at h1
      have h3 := h2 1 p' hr3
      cases h1 with
      | cons _ _ x1 h1 =>
        rw [e1] at x1
        obtain ⟨y1, y2⟩ := Prod.mk.inj (Outcome.ok.inj x1)
        subst y1
        cases h1 with
        | cons _ _ x2 h1 =>
          rw [ec] at x2
          obtain ⟨y1, y2⟩ := Prod.mk.inj (Outcome.ok.inj x2)
          simp only [List.getElem?_cons_succ, List.getElem?_cons_zero, Option.some.injEq] at h3
          exact hqc (y2.trans h3)
    · obtain ⟨k', e4, e3⟩ := Outcome.bind_eq_ok e3
      have e3' := Outcome.ok.inj e3
      have hk2 : (begin r1.k p' 0 2500).1.pc 0 = .idle := hk1 0
      have e4' : kstep S0 Config.default (begin r1.k p' 0 2500).1 0 (.alloc 0 2500) = .ok k' := e4
      unfold kstep at e4'
      rw [hk2] at e4'
      have := Outcome.ok.inj e4'
      refine ⟨sub64 w 16, ?_⟩
      rw [← e3', ← this]
      unfold RS.goto
      simp only [RS.mk.injEq, and_true, true_and]
      funext u
      by_cases hu : u = 0 <;> simp [hu]
  obtain ⟨old, rfl⟩ := h3
  obtain ⟨r4, q4, R4, g4, E4⟩ := inner_alone (t := 0) default_factor R hts R3 rfl rfl (by exact E1.lock)
  have hk4 : r4.k.pc 1 = .idle := by
    rw [E4.pc, if_neg (by omega)]
    exact hk1 1
  have hp4 : r4.pc 1 = .out := by
    rw [g4, if_neg (by omega)]
    exact hpc1 1
  obtain ⟨r5, q5, R5, g5, E5⟩ := alloc_alone (t := 1) (b := 0) (n := 800) default_factor R hts R4 ⟨hp4, hk4⟩ E4.lock hb0
    (by omega) (hbuf _ (by omega))
  have hlog4 : r4.k.log = [.alloc 0 1000, .alloc 0 2500] := by
    rw [E4.log]
    show r1.k.log ++ _ = _
    rw [hlog1]
    rfl
  have hlog5 : r5.k.log = [.alloc 0 1000, .alloc 0 2500, .alloc 0 800] := by
    rw [E5.log, hlog4]
    rfl
  have hq5 : q5 = 0 := by
    obtain ⟨s', rs, L, h1, h2, _⟩ := C72_linearizable_partial default_factor R hts R5
    rw [hlog5] at h1
    have h3 := h2 2 q5 (by rw [E5.ret, hlog4]; exact if_pos rfl)
    cases h1 with
    | cons _ _ x1 h1 =>
      rw [e1] at x1
      obtain ⟨y1, y2⟩ := Prod.mk.inj (Outcome.ok.inj x1)
      subst y1
      cases h1 with
      | cons _ _ x2 h1 =>
        rw [ea] at x2
        obtain ⟨y1, y2⟩ := Prod.mk.inj (Outcome.ok.inj x2)
        subst y1
        cases h1 with
        | cons _ _ x3 h1 =>
          rw [eb] at x3
          obtain ⟨y1, y2⟩ := Prod.mk.inj (Outcome.ok.inj x3)
          simpa [← y2] using h3.symm
  refine ⟨s, r5, p', (begin r1.k p' 0 2500).2, R, hts, R5, ?_, hbl, rfl, rfl, ⟨(g5 1).trans hp4, ?_⟩, hlog5, ?_, ?_, ?_, ?_⟩
  · rw [g5, g4, if_pos rfl]
    rfl
  · rw [E5.pc, if_pos rfl]
  · rw [E5.ret, hlog4, if_neg (by simp), E4.ret]
    show (if 0 = r1.k.log.length then _ else r1.k.ret 0) = _
    rw [hlog1, if_neg (by simp), E1.ret]
    exact if_pos rfl
  · rw [E5.ret, hlog4, hq5]
    exact if_pos rfl
  · have ha : account [] (.alloc 0 1000) p' = [⟨p', 1000, true⟩] := by simp [account, hp]
    refine ⟨qc, qd, sd, _, .cons ⟨hb0, hbuf _ (by omega)⟩ trivial e1 (.cons ?_ trivial ec
      (.cons ⟨hb0, hbuf _ (by omega)⟩ trivial ed .nil)), hqd⟩
    rw [ha]
    exact ⟨hb0, hbuf _ (by omega), Or.inr ⟨_, List.mem_cons_self, rfl, Or.inr (Or.inl rfl)⟩⟩
  · exact ⟨qe, se, _, .cons ⟨hb0, hbuf _ (by omega)⟩ trivial e1 (.cons ⟨hb0, hbuf _ (by omega)⟩ trivial ee .nil), hqe⟩

end CR
end MpcAlloc
