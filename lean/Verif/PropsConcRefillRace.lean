import Verif.PropsConcRefill
import Verif.PropsConcReallocAtomic

/-
Property C73, what is false: the refill takes no lock. The block that another thread gets meanwhile may be the chunk that the
refill is about to link, and the refill then writes in the block.
-/

namespace MpcAlloc
namespace RF

variable {σ : Type} {S : Source σ} {C : Config} {pb : Nat} {B : List (Nat × Nat)} {s0 s : CS σ} {L0 : List Block} {A : AHeap}

/-- The first step of a refill: what it returns, and where it writes. -/
theorem prepare_ok {b sz : Nat} (H : HInv pb s L0 B A) (F : FreshSeg pb A b sz) (hnr : s.c.noRegion = true) :
    ∃ m i, prepare s b sz = .ok (s.setMem m, b + 32, i) ∧ IsStoreClass (sz - 48) i ∧ i < 48 ∧
      ∀ x, x < b ∨ b + sz ≤ x → m x = s.w.mem x := by
  have hpos := F.pos
  have hge := F.ge
  have hlt := F.lt
  have hlt56 := F.lt56
  obtain ⟨m1, m2, m3⟩ := setupMacroBloc_spec s.w.mem (b := b) F.lt56
  have hM0 : MemOK (stdPool pb) (s.setMem (setupMacroBloc s.w.mem b sz)).heap A := by
    refine H.inv.mem.congr H.wf ?_
    intro x hx
    apply m3
    rcases hx with ⟨h5, h6⟩ | ⟨⟨g, hg, h5, h6⟩, _⟩
    · have := F.pool; omega
    · have := F.disj g hg; omega
  obtain ⟨m, R, e1, M1, hreg, _, f1⟩ := prepareBloc_ok (s := s.setMem (setupMacroBloc s.w.mem b sz)) H.wf hM0 F m1 m2
    (fun h => by rw [show (s.setMem (setupMacroBloc s.w.mem b sz)).c.noRegion = s.c.noRegion from rfl, hnr] at h; cases h)
  have hR : R = s.w.regs := by
    unfold RegDone at hreg
    rw [show (s.setMem (setupMacroBloc s.w.mem b sz)).c.noRegion = s.c.noRegion from rfl, hnr, if_pos rfl] at hreg
    exact hreg
  have hv : vLarge (b + 47) = b + 32 := vLarge_eq (h := b + 32) (by omega)
  have hsize : hSize m (b + 32) = sz - 48 := by
    have hs := (M1.segs ((addCtx A b sz).seg [addCk b sz]) (by simp [addCtx, Ctx.fill])).chunks
    exact hs.1.hdr.size
  have hp := H.inv.pool
  obtain ⟨j, hj, hc⟩ := insertIdx_spec (size := sz - 48) (by omega) (by omega)
  have hj48 : j < 48 := by rcases hc with h | h <;> omega
  refine ⟨setPrev (setState m (b + 32 + 15) SFREE) (b + 32) (s.c.pool.head j), j, ?_, hc, hj48, ?_⟩
  · unfold prepare
    simp only
    rw [e1, Outcome.ok_bind]
    simp only
    rw [hv, hsize, show (s.setMem (setupMacroBloc s.w.mem b sz)).c.pool = s.c.pool from rfl, hp]
    rw [show insertIdx (stdPool pb).sizes (stdPool pb).nb (stdPool pb).analytic (sz - 48) = .ok (j : Int) from hj,
      Outcome.ok_bind, if_neg (by omega), hR]
    rfl
  · intro x hx
    have h2 := f1 x hx
    unfold setPrev
    rw [writeLE_other (by omega), setState_other (by omega), h2]
    exact m3 x (by omega)

/-- The threads of a chain whose memory was changed outside its buffers and its list heads, before any call. -/
theorem kinit_mem (hf : C.reallocFactor ≠ 0) (h0 : MpcAlloc.Reach S C pb s0 [] B) (hts : s0.c.threadSafe = true) {m : Mem}
    (hm : ∀ x, (∃ y ∈ B, y.1 ≤ x ∧ x < y.1 + y.2) ∨ PoolAt pb x → m x = s0.w.mem x) :
    ∃ A, KInv S C pb B B s0 [] ⟨s0.setMem m, fun _ => .idle, [], [], fun _ => none, fun _ => none⟩ s0 [] [] A := by
  obtain ⟨A, K⟩ := kinit_inv hf h0 hts
  refine ⟨A, K.run, K.wf, ?_, K.inv, K.src, K.ts, K.bufs, K.noAdj, K.regs, K.based, K.eqw, K.eqc, K.lock, K.pcok,
    K.used, K.all, K.live, K.busy, K.inj, K.injR, K.ret, K.pend, fun l hl => by cases hl⟩
  refine MemOK.congr (h := s0.heap) K.wf K.memK ?_
  intro x hx
  apply hm
  rcases hx with h | ⟨⟨g, hg, h1, h2⟩, _⟩
  · exact Or.inr h
  · exact Or.inl ⟨(g.base, g.size), by rw [← K.bufs]; exact List.mem_map.2 ⟨g, hg, rfl⟩, h1, h2⟩

/-- A chain that was just given one buffer and does not register its memory. -/
theorem fresh_reach_nr {X sz : Nat} (h : SampleBuf X sz) :
    ∃ s : CS Unit, MpcAlloc.Reach S0 Config.default 4096 s [] [(X, sz)] ∧ s.c.noMerge = false ∧ s.c.threadSafe = true ∧
      s.c.noRegion = true := by
  obtain ⟨s, e, H⟩ := init_inv (addr := 4096) (pb := 4096) w0 true false true (by omega) (by omega) w0_regs
  have hnm : s.c.threadSafe = true ∧ s.c.noMerge = false ∧ s.c.noRegion = true := by
    obtain ⟨s', e', _, _, _, _, g0, g1, g2, _⟩ := chainBaseInit_ok w0 (addr := 4096) (pb := 4096) true false true
      (by omega) (by omega)
    unfold userInit at e
    rw [e', Outcome.ok_bind, if_neg (by simp), Outcome.pure_eq, Outcome.ok_bind] at e
    cases e
    exact ⟨g0, g1, g2⟩
  have R0 : MpcAlloc.Reach S0 Config.default 4096 s [] [] := .init (by omega) (by omega) w0_regs e
  have hv : ValidOp 4096 [] [] (.refill X sz) := by
    have := h.lo; have := h.dvdX; have := h.dvdS; have := h.ge; have := h.lt; have := h.hi
    refine ⟨by omega, by assumption, by assumption, by omega, by omega, by omega, by omega, by simp⟩
  have hr : RegOK s (.refill X sz) := by
    intro h; rw [hnm.2.2] at h; cases h
  obtain ⟨r, A', hs⟩ := step_ok S0 Config.default default_factor H.wf H.bufs H.live hv _ H.noAdj
  obtain ⟨s', e', H', g1, g2, _, g4, _⟩ := hs s H rfl hr
  refine ⟨s', ?_, g1.trans hnm.2.1, g4.trans hnm.1, g2.trans hnm.2.2⟩
  have := R0.step hv hr e'
  simpa [account, accountBufs] using this

/-- The list of the only free chunk. -/
theorem one_first {X sz i : Nat} {s : CS σ} (H : HInv pb s [] [(X, sz)] A) (hm : s.c.noMerge = false)
    (hi : IsStoreClass (sz - 48) i) (h48 : i < 48) : getNext s.w.mem (s.c.pool.head i) = X + 32 := by
  have hseg := H.one_seg hm
  have hF : A.Has ⟨X + 32, sz - 48, .free⟩ := ⟨_, by rw [hseg]; exact List.mem_singleton.2 rfl, by simp⟩
  obtain ⟨j, hj⟩ := H.wf.flAll _ hF rfl
  have : j = i := (H.wf.flClass j _ hj).unique hi
  subst this
  cases hl : A.fl j with
  | nil => rw [hl] at hj; cases hj
  | cons c l =>
    have hc : c ∈ A.fl j := by rw [hl]; exact List.mem_cons_self
    obtain ⟨g, hg, hcg⟩ := H.wf.flHas j c hc
    rw [hseg] at hg
    rw [List.mem_singleton.1 hg] at hcg
    have hce : c = ⟨X + 32, sz - 48, .free⟩ := by simpa using hcg
    have h1 := H.inv.mem.lists j h48
    rw [hl] at h1
    have h2 := h1.1
    rw [H.inv.pool, hce] at *
    exact h2

/-- Steps of a thread that is in no refill. -/
theorem Reach.plain {f0 f : FS σ} {k' : KS σ} {t : Nat} {a : KAct} (h : Reach S C pb f0 f) (ho : f.pc t = .out)
    (hv : f.k.pc t = .idle → FValid pb f (.plain a)) (e : kstep S C f.k t a = .ok k') :
    Reach S C pb f0 { f with k := k' } :=
  h.step (fun hi => hv hi.2) (by rw [fstep_plain ho, e, Outcome.ok_bind])

/-- The hypotheses of the positive theorems: thread 1 gives the chain a second buffer while thread 2 is in the middle of an
allocation that does not fit in the first one. -/
example : ∃ (s : CS Unit) (f : FS Unit), MpcAlloc.Reach S0 Config.default 4096 s [] [(8192, 4096)] ∧ s.c.threadSafe = true ∧
    Guarded S0 Config.default 4096 (.start s [] [(8192, 4096)]) f ∧ f.bufs = [(8192, 4096), (16384, 8192)] ∧
    f.k.pc 2 = .allocSwap 0 5000 := by
  obtain ⟨s, R, hnm, hts, hnr⟩ := fresh_reach_nr sampleBuf_4096
  obtain ⟨A, H⟩ := reach_inv default_factor R
  have G0 : Guarded S0 Config.default 4096 (.start s [] [(8192, 4096)]) _ := .init
  have e1 : kstep S0 Config.default (FS.start s [] [(8192, 4096)]).k 2 (.alloc 0 5000) =
    .ok ((FS.start s [] [(8192, 4096)]).k.goto 2 (.allocSwap 0 5000)) := rfl
  have G1 := G0.step (t := 2) (a := .alloc 0 5000) (fun _ => ⟨Or.inl (by omega), by simp⟩) (by rw [fstep_plain rfl, e1, Outcome.ok_bind])
  have hi : FS.Idle ({ FS.start s [] [(8192, 4096)] with k := (FS.start s [] [(8192, 4096)]).k.goto 2 (.allocSwap 0 5000) }) 1 :=
    ⟨rfl, rfl⟩
  have hv : FValid 4096 ({ FS.start s [] [(8192, 4096)] with k := (FS.start s [] [(8192, 4096)]).k.goto 2 (.allocSwap 0 5000) })
      (.refill 16384 8192) := by
    refine ⟨⟨by omega, by omega, by omega, by omega, by omega, by omega, by omega, by simp⟩, ?_, ?_⟩
    · rintro y (hy | ⟨t, hy⟩)
      · rw [List.mem_singleton.1 hy]; exact Or.inl (by simp)
      · rcases hy with h | ⟨_, _, h⟩ | ⟨_, _, h⟩ | ⟨_, _, _, h⟩ | ⟨_, _, h⟩ | ⟨_, h⟩ | h <;> cases h
    · intro h
      exact absurd (hnr.symm.trans h) (by simp)
  obtain ⟨f, hA, h1, h2, h3, _⟩ := (C73_no_failure_partial default_factor R hts G1 1).2 16384 8192 hi hv H.inv.lock
  exact ⟨s, f, R, hts, G1.refill hi hv H.inv.lock hA, h1, by rw [h3]; rfl⟩

/-- C73: the refill is not safe while other threads use the chain. The chain has a buffer of 4096 bytes; thread 1 gives it
another one and has read, in line 520, the address of the first free chunk. Thread 2 then allocates 100 bytes, gets that
chunk and stores the byte 1 at rank 8. Thread 1 goes on and writes the address of its chunk there. -/
theorem C73_refuted : ∃ (s : CS Unit) (f : FS Unit), MpcAlloc.Reach S0 Config.default 4096 s [] [(8192, 4096)] ∧
    s.c.threadSafe = true ∧ Reach S0 Config.default 4096 (.start s [] [(8192, 4096)]) f ∧
    f.k.live = [⟨8240, 100, true⟩] ∧ f.k.data 8248 = some 1 ∧ f.k.s.w.mem 8248 ≠ 1 := by
  obtain ⟨s, R, hnm, hts, hnr⟩ := fresh_reach_nr sampleBuf_4096
  obtain ⟨A, H⟩ := reach_inv default_factor R
  have hb0 : GoodBound 0 := Or.inl (by omega)
  have hvr : ValidOp 4096 [] [(8192, 4096)] (.refill 16384 4096) := by
    refine ⟨by omega, by omega, by omega, by omega, by omega, by omega, by omega, ?_⟩
    intro x hx
    rw [List.mem_singleton.1 hx]
    exact Or.inl (by simp)
  obtain ⟨m, i, ep, hcl, hi48, fm⟩ := prepare_ok H (freshSeg_of H.bufs hvr) hnr
  generalize hm' : setNext m 16416 (getNext m (s.c.pool.head i)) = m'
  have hout : ∀ x, x < 16384 → m' x = s.w.mem x := by
    intro x hx
    rw [← hm', ← fm x (by omega)]
    unfold setNext
    exact writeLE_other (by omega)
  have hfirst : getNext m' (s.c.pool.head i) = 8224 := by
    refine Eq.trans ?_ (one_first H hnm hcl hi48)
    rw [H.inv.pool]
    refine readLE_congr ?_
    intro x h1 h2
    refine hout x ?_
    have : (stdPool 4096).head i = 4096 + 32 * i := rfl
    omega
  -- the refill, up to the load
  have Q0 : Reach S0 Config.default 4096 (.start s [] [(8192, 4096)]) _ := .init
  have Q1 := Q0.step (t := 1) (a := .refill 16384 4096) (f' := (FS.start s [] [(8192, 4096)]).goto _ 1 (.prep 16384 4096))
    (fun _ => ⟨⟨by omega, by omega, by omega, by omega, by omega, by omega, by omega, by simp⟩, ?_, ?_⟩) rfl
  rotate_left
  · rintro y (hy | ⟨t, hy⟩)
    · rw [List.mem_singleton.1 hy]; exact Or.inl (by simp)
    · rcases hy with h | ⟨_, _, h⟩ | ⟨_, _, h⟩ | ⟨_, _, _, h⟩ | ⟨_, _, h⟩ | ⟨_, h⟩ | h <;> cases h
  · intro h
    rw [show (FS.start s [] [(8192, 4096)]).k.s.c.noRegion = s.c.noRegion from rfl, hnr] at h
    cases h
  have Q2 := Q1.step (t := 1) (a := .plain (.free 0)) (f' := (FS.start s [] [(8192, 4096)]).goto
      (atM (FS.start s [] [(8192, 4096)]).k s m) 1 (.next 16384 4096 16416 i))
    (fun h => by have := h.1; rw [goto_pc] at this; cases this)
    (by
      unfold fstep
      rw [goto_pc]
      simp only
      rw [goto_k, show (FS.start s [] [(8192, 4096)]).k.s = s from rfl, ep, Outcome.ok_bind, goto_goto]
      rfl)
  have Q3 := Q2.step (t := 1) (a := .plain (.free 0)) (f' := (FS.start s [] [(8192, 4096)]).goto
      (atM (FS.start s [] [(8192, 4096)]).k s m') 1 (.load 16384 4096 16416 i))
    (fun h => by have := h.1; rw [goto_pc] at this; cases this)
    (by
      unfold fstep
      rw [goto_pc]
      simp only
      rw [goto_goto, goto_k, setM_atM, atM_mem, atM_pool, hm'])
  have Q4 := Q3.step (t := 1) (a := .plain (.free 0)) (f' := (FS.start s [] [(8192, 4096)]).goto
      (atM (FS.start s [] [(8192, 4096)]).k s m') 1 (.store 16384 4096 16416 i 8224))
    (fun h => by have := h.1; rw [goto_pc] at this; cases this)
    (by
      unfold fstep
      rw [goto_pc]
      simp only
      rw [goto_goto, goto_k, atM_mem, atM_pool, hfirst])
  -- the allocation
  obtain ⟨A1, K0⟩ := kinit_mem (m := m') default_factor R hts (by
    rintro x (⟨y, hy, h1, h2⟩ | h)
    · rw [List.mem_singleton.1 hy] at h1 h2
      exact hout x (by simp only at h2; omega)
    · unfold PoolAt at h
      exact hout x (by omega))
  have hl0 : s.c.lock = false := H.inv.lock
  have ho : ∀ (k : KS Unit), ({ (FS.start s [] [(8192, 4096)]).goto (atM (FS.start s [] [(8192, 4096)]).k s m') 1
    (.store 16384 4096 16416 i 8224) with k := k } : FS Unit).pc 2 = .out := fun k => rfl
  obtain ⟨k1, e1, s1, rs1, L1, A2, K1, _⟩ := K0.step (t := 2) (act := .alloc 0 100) default_factor R
    (fun _ => ⟨hb0, Or.inl (by simp)⟩)
  have Q5 := Q4.plain (t := 2) (a := .alloc 0 100) rfl (fun _ => ⟨hb0, by simp⟩) e1
  have e1' := Outcome.ok.inj e1
  obtain ⟨k2, k3, k4, k5, q, x2, x3, x4, x5, n2, n3, n4, _, E⟩ := CR.kalloc_run (t := 2) (b := 0) (n := 100) default_factor R K1
    (by rw [← e1']; rfl) (by rw [← e1']; exact hl0)
  have n1 : k1.pc 2 ≠ .idle := by rw [← e1']; exact fun h => by cases h
  have Q6 := Q5.plain (ho _) (fun h => absurd h n1) x2
  have Q7 := Q6.plain (ho _) (fun h => absurd h n2) x3
  have Q8 := Q7.plain (ho _) (fun h => absurd h n3) x4
  have Q9 := Q8.plain (ho _) (fun h => absurd h n4) x5
  have go : ∀ {k k' : KS Unit}, (∃ s2 rs L A, KInv S0 Config.default 4096 [(8192, 4096)] [(8192, 4096)] s [] k s2 rs L A) →
      k.pc 2 ≠ .idle → kstep S0 Config.default k 2 (.free 0) = .ok k' →
      ∃ s2 rs L A, KInv S0 Config.default 4096 [(8192, 4096)] [(8192, 4096)] s [] k' s2 rs L A := by
    rintro k k' ⟨s2, rs, L, A, K⟩ hn e
    obtain ⟨k'', e', s3, rs3, L3, A3, K3, _⟩ := K.step default_factor R (fun h => absurd h hn)
    rw [e] at e'
    rw [Outcome.ok.inj e']
    exact ⟨_, _, _, _, K3⟩
  obtain ⟨s5, rs5, L5, A5, K5⟩ := go (go (go (go ⟨_, _, _, _, K1⟩ n1 x2) n2 x3) n3 x4) n4 x5
  have hlog1 : k1.log = [] := by rw [← e1']; rfl
  have hlive1 : k1.live = [] := by rw [← e1']; rfl
  have hq : q = 8240 := by
    obtain ⟨s', A0, Ab, d, O⟩ := CR.one_block_of (b := 0) (n := 100) R hnm hb0 (by omega) (by simp) (by omega)
    have hr := K5.run
    have hres := K5.ret 0 q (by rw [E.ret, hlog1]; rfl)
    rw [E.log, hlog1] at hr
    have hd : d.uptr = 8240 := by
      have h1 := O.got.addr
      have h2 := O.got.noPad (by omega)
      simp only at h1
      unfold Ck.uptr Ck.off
      rw [h2, h1]
      rfl
    cases hr with
    | cons _ _ x _ =>
      rw [show exec S0 Config.default s (.alloc 0 100) = .ok (s', d.uptr) from O.call] at x
      have := (Prod.mk.inj (Outcome.ok.inj x)).2
      simp only [List.getElem?_cons_zero, Option.some.injEq] at hres
      rw [← hres, ← this, hd]
  subst hq
  have hlive5 : k5.live = [⟨8240, 100, true⟩] := by
    rw [E.live, hlive1]
    rfl
  have hpc5 : k5.pc 2 = .idle := by rw [E.pc, if_pos rfl]
  -- the store of the client, then that of the refill
  obtain ⟨k6, ew, hlive6, hdata6⟩ : ∃ k6, kstep S0 Config.default k5 2 (.write 8248 1) = .ok k6 ∧
      k6.live = [⟨8240, 100, true⟩] ∧ k6.data 8248 = some 1 := by
    have e : kstep S0 Config.default k5 2 (.write 8248 1) = kstart k5 2 (.write 8248 1) := by
      unfold kstep
      rw [hpc5]
    rw [e]
    exact ⟨_, rfl, hlive5, rfl⟩
  have Q10 := Q9.plain (t := 2) (a := .write 8248 1) (ho _) (fun _ => ⟨⟨8240, 100, true⟩, by
    show _ ∈ k5.live
    rw [hlive5]; exact List.mem_cons_self, by unfold Block.Byte; simp⟩) ew
  have Q11 := Q10.step (t := 1) (a := .plain (.free 0)) (f' := FS.goto _ (setM k6 (setPrev k6.s.w.mem 8224 16416)) 1
    (.link 16384 4096 16416 i)) (fun h => by have := h.1; cases this) (by
      unfold fstep
      show (if (8224 : Nat) = 0 then Outcome.ub else _) = _
      rw [if_neg (by omega)])
  refine ⟨s, _, R, hts, Q11, hlive6, hdata6, ?_⟩
  have : setPrev k6.s.w.mem 8224 16416 8248 ≠ 1 := by
    unfold setPrev writeLE
    rw [if_pos (by omega)]
    decide
  exact this

end RF
end MpcAlloc
