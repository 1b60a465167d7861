import Verif.ConcRefill
import Verif.PropsConcurrent

/-
Refill of a chain in the middle of the calls of other threads, when it is not interleaved with their steps.
-/

namespace MpcAlloc
namespace RF

variable {σ : Type} {S : Source σ} {C : Config} {pb : Nat} {B0 B : List (Nat × Nat)} {s0 s : CS σ} {L0 Ls : List Block}
  {k : KS σ} {rs : List Nat} {A : AHeap}

/-! ### Requests -/

/-- The request of a thread that waits for the lock, or has just got it, is below 2^63. -/
def Small : KPc → Prop
  | .allocSwap b n | .allocLoad b n | .allocCrit b n => n + (if 1 < b then b else 0) + 16 < W63
  | _ => True

theorem pcOK_bufs {B' : List (Nat × Nat)} {m : Mem} {P : KPc} (h : PcOK B A m Ls rs P) (hs : Small P) :
    PcOK B' A m Ls rs P := by
  cases P <;> first | exact h | exact ⟨h.1, Or.inl hs, h.2.2⟩

theorem small_goto {t : Nat} {P : KPc} (h : ∀ u, Small (k.pc u)) (hP : Small P) : ∀ u, Small ((k.goto t P).pc u) := by
  intro u
  show Small (if u = t then P else k.pc u)
  split
  · exact hP
  · exact h u

theorem kstep_small {k' : KS σ} {t : Nat} {a : KAct} (e : kstep S C k t a = .ok k') (h : ∀ u, Small (k.pc u))
    (ha : k.pc t = .idle → ∀ b n, a = .alloc b n → n + (if 1 < b then b else 0) + 16 < W63) : ∀ u, Small (k'.pc u) := by
  have ht := h t
  unfold kstep at e
  split at e
  · rename_i hp
    unfold kstart at e
    split at e
    · split at e <;> cases e
      · exact h
      · exact small_goto h (ha hp _ _ rfl)
    · split at e <;> cases e
      · exact h
      · exact small_goto (k := { k with live := _ }) h trivial
    · cases e; exact h
  · rename_i hp
    rw [hp] at ht
    cases e
    refine small_goto (k := k.setLock true) h ?_
    split <;> exact ht
  · rename_i hp
    rw [hp] at ht
    cases e
    refine small_goto h ?_
    split <;> exact ht
  · obtain ⟨⟨s, v⟩, _, e⟩ := Outcome.bind_eq_ok e
    cases e
    exact small_goto (k := ({ k with s := s } : KS σ).enter _) h trivial
  · cases e; exact small_goto (k := k.setLock false) h trivial
  · rename_i b n v i hp
    have e := Outcome.ok.inj e
    rw [← e]
    intro u
    by_cases hu : u = t
    · simp only [KS.goto, if_pos hu, Small]
    · simp only [KS.goto, if_neg hu, KS.return, KS.give]
      exact h u
  · obtain ⟨v, _, e⟩ := Outcome.bind_eq_ok e
    split at e
    · split at e
      · cases e
      · cases e; exact small_goto (k := k.now _) h trivial
    · split at e
      · cases e
      · cases e; exact small_goto h trivial
  · cases e
    refine small_goto (k := k.setLock true) h ?_
    split <;> trivial
  · cases e
    refine small_goto h ?_
    split <;> trivial
  · obtain ⟨s, _, e⟩ := Outcome.bind_eq_ok e
    cases e
    exact small_goto (k := ({ k with s := s } : KS σ).enter _) h trivial
  · cases e; exact small_goto (k := (k.setLock false).return _ _) h trivial

/-! ### The refill in one step -/

/-- Bytes of a chunk in use are in no list head, in no free chunk and in no other buffer. -/
theorem used_quiet {d : Ck} {b sz x : Nat} (W : A.WF pb) (F : FreshSeg pb A b sz) (hd : A.Used d) (h1 : d.addr + 16 ≤ x)
    (h2 : x < d.addr + d.size) : ¬ PoolAt pb x ∧ ¬ A.FreeAt x ∧ (x < b ∨ b + sz ≤ x) := by
  obtain ⟨⟨g, hg, hc⟩, p, hp⟩ := hd
  have hb := (W.seg g hg).bounds hc
  have hdj := F.disj g hg
  have hpl := W.pool g hg
  refine ⟨?_, ?_, by omega⟩
  · unfold PoolAt; omega
  · rintro ⟨c, hc', hf, h5, h6⟩
    have hne : c ≠ d := by
      rintro rfl
      rw [hp] at hf; cases hf
    have := W.has_disj hc' ⟨g, hg, hc⟩ hne
    omega

theorem _root_.MpcAlloc.KInv.refill (H : KInv S C pb B0 B s0 L0 k s rs Ls A) (hsm : ∀ t, Small (k.pc t))
    (hlk : k.s.c.lock = false) {b sz : Nat} (hv : ValidOp pb Ls B (.refill b sz)) (hr : RegOK k.s (.refill b sz)) :
    ∃ s1 s' A', userRefill k.s b sz = .ok s1 ∧
      KInv S C pb B0 (B ++ [(b, sz)]) s0 L0 (({ k with s := s1 } : KS σ).now (.refill b sz)) s' (rs ++ [0]) Ls A' := by
  have F := freshSeg_of H.bufs hv
  have W := H.wf
  obtain ⟨A', R, hs⟩ := refill_ok (σ := σ) W F
  have e1 : k.s.c.noRegion = s.c.noRegion := by rw [H.eqc]
  have e2 : k.s.c.base = s.c.base := by rw [H.eqc]
  have Ik : ChainInv pb k.s A :=
    ⟨H.pool, H.memK, by rw [H.eqc]; exact H.inv.dead, hlk, by rw [H.eqc]; exact H.inv.base⟩
  obtain ⟨hk, Rk, ek, Mk, hRk, _, fk⟩ := hs k.s Ik (fun h => ⟨H.eqw.1, (hr h).1, (hr h).2⟩)
  have hrs : RegOK s (.refill b sz) := by
    intro h
    rw [← H.eqw.2]
    exact hr (e1.trans h)
  obtain ⟨h', Rg, es, Ms, hRs, _, fs⟩ := hs s H.inv (fun h => ⟨H.regs, (hrs h).1, (hrs h).2⟩)
  have hex : exec S C s (.refill b sz) = .ok (refilled s h' Rg b sz, 0) := by rw [exec_refill, es]; rfl
  have hrun := H.run.snoc hv hrs hex
  have hlen := H.run.length
  have hreg : Rg.OK ∧ Rk.OK ∧ Rk.ent = Rg.ent := by
    unfold RegDone at hRk hRs
    rw [e1] at hRk
    cases hnr : s.c.noRegion with
    | true =>
      rw [hnr, if_pos rfl] at hRk hRs
      rw [hRk, hRs]
      exact ⟨H.regs, H.eqw⟩
    | false =>
      rw [hnr, if_neg (by simp)] at hRk hRs
      exact ⟨hRs.1, hRk.1, by rw [hRk.2, hRs.2, H.eqw.2]⟩
  have hshape : A'.shape = B ++ [(b, sz)] := by rw [R.shape, H.bufs]
  refine ⟨_, refilled s h' Rg b sz, A', ek, ⟨hrun, R.wf, Mk, ⟨H.inv.pool, Ms, H.inv.dead, H.inv.lock, ?_⟩, H.src, H.ts, hshape,
    fun h => R.noAdj (H.noAdj h), hreg.1, ?_, hreg.2, ?_, H.lock, ?_, ?_, ?_, H.live, H.busy, H.inj, H.injR, ?_, ?_, ?_⟩⟩
  · intro hb
    simp only [refilled] at hb ⊢
    by_cases h0 : s.c.base = 0
    · rw [if_pos h0, if_pos h0]
      have : (b, sz) ∈ A'.shape := by rw [hshape]; simp
      obtain ⟨g, hg, he⟩ := List.mem_map.1 this
      simp only [Prod.mk.injEq] at he
      exact ⟨g, hg, he.1, by rw [he.1, he.2]⟩
    · rw [if_neg h0, if_neg h0]
      obtain ⟨g, hg, g1, g2⟩ := H.inv.base h0
      have : (g.base, g.size) ∈ A'.shape := by
        rw [R.shape]; exact List.mem_append_left _ (List.mem_map.2 ⟨g, hg, rfl⟩)
      obtain ⟨g', hg', he⟩ := List.mem_map.1 this
      simp only [Prod.mk.injEq] at he
      exact ⟨g', hg', by rw [he.1]; exact g1, by rw [he.1, he.2]; exact g2⟩
  · intro _
    have := F.pos
    simp only [refilled]
    split <;> omega
  · have e3 : k.s.c.end_ = s.c.end_ := by rw [H.eqc]
    have e4 : k.s.c.cnt = s.c.cnt := by rw [H.eqc]
    have e5 := congrArg Chain.addr H.eqc
    have e6 := congrArg Chain.pool H.eqc
    have e7 := congrArg Chain.threadSafe H.eqc
    have e8 := congrArg Chain.noMerge H.eqc
    have e9 := congrArg Chain.hasSrc H.eqc
    have e10 := congrArg Chain.handler H.eqc
    have e11 := congrArg Chain.dead H.eqc
    have e12 := congrArg Chain.calls H.eqc
    have e13 := congrArg Chain.rfqHead H.eqc
    have e14 := congrArg Chain.rfqTail H.eqc
    simp only at e5 e6 e7 e8 e9 e10 e11 e12 e13 e14
    simp only [refilled, KS.now, KS.enter, KS.return]
    rw [e1, e2, e3, e4, e5, e6, e7, e8, e9, e10, e11, e12, e13, e14]
  · intro t
    refine pcOK_bufs (B := B) ?_ (hsm t)
    refine (H.pcok t).mono W (fun i r h => getElem?_append_some h) ?_ ?_ (fun _ hl _ => hl)
    · intro v _ d hd _
      refine ⟨(R.used d).2 hd, ?_⟩
      intro x h1 h2
      obtain ⟨g1, g2, g3⟩ := used_quiet W F hd h1 h2
      exact fs x g1 g2 g3
    · intro p _ _ c hc _
      exact (R.used c).2 hc
  · intro l hl
    obtain ⟨c, h1, h2⟩ := H.used l hl
    exact ⟨c, (R.used c).2 h1, h2⟩
  · intro c hc
    exact H.all c ((R.used c).1 hc)
  · intro i r h
    simp only [KS.now, KS.enter, KS.return] at h
    split at h
    · rename_i hi
      cases h
      rw [hi, ← hlen]
      simp
    · exact getElem?_append_some (H.ret i r h)
  · intro i hi
    simp only [KS.now, KS.enter, KS.return, List.length_append, List.length_singleton] at hi ⊢
    by_cases hi2 : i = k.log.length
    · left; simp [hi2]
    · simp only [if_neg hi2]
      exact H.pend i (by omega)
  · intro l hl x hx v hd
    obtain ⟨_, c, hc, g1, g2, _⟩ := H.owned hl
    have := W.uptr_ge c
    obtain ⟨hx1, hx2⟩ := hx
    obtain ⟨q1, q2, q3⟩ := used_quiet W F hc (x := x) (by omega) (by omega)
    exact (fk x q1 q2 q3).trans (H.data l hl x ⟨hx1, hx2⟩ v hd)

/-! ### The steps of a refill that nobody interrupts -/

theorem goto_pc (f : FS σ) (k : KS σ) (t : Nat) (p : FPc) : (f.goto k t p).pc t = p := if_pos rfl

theorem goto_k (f : FS σ) (k : KS σ) (t : Nat) (p : FPc) : (f.goto k t p).k = k := rfl

theorem goto_goto (f : FS σ) (k k' : KS σ) (t : Nat) (p p' : FPc) : (f.goto k t p).goto k' t p' = f.goto k' t p' := by
  unfold FS.goto
  congr 1
  funext u
  by_cases h : u = t
  · simp only [if_pos h]
  · simp only [if_neg h]

theorem goto_out {f : FS σ} {t : Nat} (h : f.pc t = .out) (k : KS σ) : f.goto k t .out = { f with k := k } := by
  unfold FS.goto
  congr 1
  funext u
  split
  · rename_i e; rw [e, h]
  · rfl

theorem Alone.det {t : Nat} {a : FAct} {f f1 f2 : FS σ} (h1 : Alone S C t a f f1) (h2 : Alone S C t a f f2) : f1 = f2 := by
  induction h1 with
  | last e o =>
    cases h2 with
    | last e' o' => rw [e] at e'; exact Outcome.ok.inj e'
    | more e' o' _ => rw [e] at e'; cases Outcome.ok.inj e'; exact absurd o o'
  | more e o _ ih =>
    cases h2 with
    | last e' o' => rw [e] at e'; cases Outcome.ok.inj e'; exact absurd o' o
    | more e' o' h' => rw [e] at e'; cases Outcome.ok.inj e'; exact ih h'

/-- The state after a refill. -/
def FS.refilled (f : FS σ) (s' : CS σ) (b sz : Nat) : FS σ :=
  ⟨({ f.k with s := s' } : KS σ).now (.refill b sz), f.pc, f.bufs ++ [(b, sz)]⟩

/-- State of the threads in which the chain is `s` with memory `m`. -/
def atM (k : KS σ) (s : CS σ) (m : Mem) : KS σ := { k with s := s.setMem m }

theorem atM_mem (k : KS σ) (s : CS σ) (m : Mem) : (atM k s m).s.w.mem = m := rfl

theorem atM_pool (k : KS σ) (s : CS σ) (m : Mem) : (atM k s m).s.c.pool = s.c.pool := rfl

theorem setM_atM (k : KS σ) (s : CS σ) (m m' : Mem) : setM (atM k s m) m' = atM k s m' := rfl

/-- The steps of a refill, one after the other, are the function of the sequential model. -/
theorem alone_refill {f : FS σ} {t b sz : Nat} {s' : CS σ} (hi : f.Idle t) (hb : b ≠ 0) (hsz : 80 < sz)
    (e : userRefill f.k.s b sz = .ok s') : Alone S C t (.refill b sz) f (f.refilled s' b sz) := by
  unfold userRefill at e
  rw [if_neg (by omega), if_neg (by omega), if_pos ⟨hb, by omega⟩] at e
  obtain ⟨s2, e2, e⟩ := Outcome.bind_eq_ok e
  simp only at e2
  obtain ⟨⟨s3, v⟩, e3, e2⟩ := Outcome.bind_eq_ok e2
  simp only at e2
  obtain ⟨h, e4, e2⟩ := Outcome.bind_eq_ok e2
  have e2 := Outcome.ok.inj e2
  unfold freeListInsert at e4
  obtain ⟨i, e5, e4⟩ := Outcome.bind_eq_ok e4
  by_cases hub : i < 0 ∨ 48 ≤ i
  · rw [if_pos hub] at e4; cases e4
  rw [if_neg hub] at e4
  obtain ⟨m, e6, e4⟩ := Outcome.bind_eq_ok e4
  have e4 := Outcome.ok.inj e4
  unfold linkChunk at e6
  rw [if_neg (by simp)] at e6
  simp only at e6
  generalize hl : s3.c.pool.head i.toNat = fl at e6
  generalize hc : vLarge v = c at e4 e5 e6
  generalize hm1 : setPrev (setState s3.heap.mem (c + 15) SFREE) c fl = m1 at e6
  generalize hm2 : setNext m1 c (getNext m1 fl) = m2 at e6
  by_cases hn : getNext m2 fl = 0
  · rw [if_pos hn] at e6; cases e6
  rw [if_neg hn] at e6
  have e6 := Outcome.ok.inj e6
  have hprep : prepare f.k.s b sz = .ok (s3.setMem m1, c, i.toNat) := by
    unfold prepare
    simp only
    rw [e3, Outcome.ok_bind]
    simp only [hc]
    have e5' : insertIdx s3.c.pool.sizes s3.c.pool.nb s3.c.pool.analytic (hSize s3.w.mem c) = .ok i := e5
    rw [e5', Outcome.ok_bind, if_neg hub, hl]
    rw [← hm1]
    rfl
  -- the steps
  refine .more (f' := f.goto f.k t (.prep b sz)) ?_ (by rw [goto_pc]; exact fun h => by cases h) ?_
  · unfold fstep
    rw [hi.1]
    simp only
    rw [hi.2]
    simp only
    rw [if_neg (by omega), if_neg (by omega), if_pos ⟨hb, by omega⟩]
  refine .more (f' := f.goto (atM f.k s3 m1) t (.next b sz c i.toNat)) ?_
    (by rw [goto_pc]; exact fun h => by cases h) ?_
  · unfold fstep
    rw [goto_pc]
    simp only
    rw [goto_k, hprep, Outcome.ok_bind, goto_goto]
    rfl
  refine .more (f' := f.goto (atM f.k s3 m2) t (.load b sz c i.toNat)) ?_
    (by rw [goto_pc]; exact fun h => by cases h) ?_
  · unfold fstep
    rw [goto_pc]
    simp only
    rw [goto_goto, goto_k, setM_atM, atM_mem, atM_pool, hl, hm2]
  refine .more (f' := f.goto (atM f.k s3 m2) t (.store b sz c i.toNat (getNext m2 fl))) ?_
    (by rw [goto_pc]; exact fun h => by cases h) ?_
  · unfold fstep
    rw [goto_pc]
    simp only
    rw [goto_goto, goto_k, atM_mem, atM_pool, hl]
  refine .more (f' := f.goto (atM f.k s3 (setPrev m2 (getNext m2 fl) c)) t (.link b sz c i.toNat)) ?_
    (by rw [goto_pc]; exact fun h => by cases h) ?_
  · unfold fstep
    rw [goto_pc]
    simp only
    rw [if_neg hn, goto_goto, goto_k, setM_atM, atM_mem]
  refine .more (f' := f.goto (atM f.k s3 m) t (.mark b sz i.toNat)) ?_
    (by rw [goto_pc]; exact fun h => by cases h) ?_
  · unfold fstep
    rw [goto_pc]
    simp only
    rw [goto_goto, goto_k, setM_atM, atM_mem, atM_pool, hl, e6]
  refine .more (f' := f.goto { f.k with s := s2 } t (.last b sz)) ?_
    (by rw [goto_pc]; exact fun h => by cases h) ?_
  · unfold fstep
    rw [goto_pc]
    simp only
    rw [goto_goto, goto_k, ← e2, ← e4]
    rfl
  refine .last ?_ hi.1
  unfold fstep
  rw [goto_pc]
  simp only
  rw [goto_goto, goto_k]
  have : finish s2 b sz = s' := by
    have e := Outcome.ok.inj e
    rw [← e]
    rfl
  show Outcome.ok { f.goto (({ f.k with s := finish s2 b sz } : KS σ).now (.refill b sz)) t .out with bufs := f.bufs ++ [(b, sz)] } = _
  rw [this, goto_out hi.1]
  rfl

end RF
end MpcAlloc
