import Verif.ConcurrentLemmas
import Verif.PropsStat

/-
Property C29: concurrent calls on a thread safe chain without memory source.
-/

namespace MpcAlloc

variable {σ : Type} {S : Source σ} {C : Config} {pb : Nat} {B0 B : List (Nat × Nat)} {s0 : CS σ} {L0 : List Block} {k : KS σ}

/-- Two states from which no client can tell which one it has: whatever valid calls are made next, one at a time,
both give the same results, and the chunks of every buffer are the same. -/
structure SameChain (S : Source σ) (C : Config) (pb : Nat) (L : List Block) (B : List (Nat × Nat)) (s t : CS σ) :
    Prop where
  runs : ∀ ops rs, (∃ s' L' B', Run S C pb s L B ops rs s' L' B') ↔ ∃ t' L' B', Run S C pb t L B ops rs t' L' B'
  chunks : ∀ y ∈ B, ∀ ch, BufChunks s.w.mem y.1 y.2 ch ↔ BufChunks t.w.mem y.1 y.2 ch

/-- What the invariant says about the log. -/
theorem KInv.linear {s : CS σ} {rs : List Nat} {L : List Block} {A : AHeap} (hf : C.reallocFactor ≠ 0)
    (h0 : Reach S C pb s0 L0 B0) (H : KInv S C pb B0 B s0 L0 k s rs L A) :
    ∃ s rs L, Run S C pb s0 L0 B0 k.log rs s L B ∧ (∀ i r, k.ret i = some r → rs[i]? = some r) ∧
      (∀ l ∈ k.live, l ∈ L) ∧
      (k.Quiescent → (∀ i, i < k.log.length → k.ret i ≠ none) ∧ (∀ l ∈ L, l ∈ k.live) ∧ SameChain S C pb L B s k.s) := by
  refine ⟨s, rs, L, H.run, H.ret, fun l hl => ((H.live l).1 hl).1, ?_⟩
  intro hq
  have hlive : LiveOK A L := by
    refine ⟨H.nodup hf h0, ?_, ?_⟩
    · intro l hl
      obtain ⟨c, hc, h | ⟨t, h1, _⟩⟩ := H.used l hl
      · exact ⟨c, hc, h.1, h.2.1, h.2.2.1⟩
      · rw [hq t] at h1; cases h1
    · intro c hc
      obtain ⟨l, hl, h | ⟨t, h1, _⟩⟩ := H.all c hc
      · exact ⟨l, hl, h.1.symm⟩
      · rw [hq t] at h1; cases h1
  have hlock : k.s.c.lock = false := by
    cases hl : k.s.c.lock with
    | false => rfl
    | true =>
      obtain ⟨t, ht⟩ := H.lock.iff.1 hl
      rw [hq t] at ht; cases ht
  have Hs : HInv pb s L B A := ⟨H.wf, H.inv, H.src, H.bufs, hlive, H.noAdj, H.regs, H.based⟩
  have Hk : HInv pb k.s L B A := by
    refine ⟨H.wf, ⟨H.pool, H.memK, ?_, hlock, ?_⟩, H.noSrc, H.bufs, hlive, ?_, ?_, ?_⟩
    · rw [H.eqc]; exact H.inv.dead
    · rw [H.eqc]; exact H.inv.base
    · rw [H.eqc]; exact H.noAdj
    · exact H.eqw.1
    · rw [H.eqc]; exact H.based
  have e1 : k.s.c.noMerge = s.c.noMerge := by rw [H.eqc]
  have e2 : k.s.c.noRegion = s.c.noRegion := by rw [H.eqc]
  have e3 : k.s.w.regs.ent = s.w.regs.ent := H.eqw.2
  have hsame : ∀ ops : List Op, List.Forall₂ SameCall ops ops := by
    intro ops
    induction ops with
    | nil => exact .nil
    | cons o ops ih => exact .cons (.refl o) ih
  refine ⟨?_, ?_, ⟨?_, ?_⟩⟩
  · intro i hi
    rcases H.pend i hi with h | ⟨t, ht⟩
    · exact h
    · rw [hq t] at ht; cases ht
  · intro l hl
    exact (H.live l).2 ⟨hl, fun t => by rw [hq t]; simp [busyOf]⟩
  · intro ops rs2
    constructor
    · rintro ⟨s', L', B', hr⟩
      obtain ⟨t', ht'⟩ := run_sim hf hr Hs Hk e1 e2 e3 (hsame ops)
      exact ⟨t', L', B', ht'⟩
    · rintro ⟨s', L', B', hr⟩
      obtain ⟨t', ht'⟩ := run_sim hf hr Hk Hs e1.symm e2.symm e3.symm (hsame ops)
      exact ⟨t', L', B', ht'⟩
  · intro y hy ch
    rw [← H.bufs] at hy
    obtain ⟨g, hg, rfl⟩ := List.mem_map.1 hy
    have v1 := Hs.chunksOf hg
    have v2 := Hk.chunksOf hg
    constructor
    · intro h
      rw [h.unique v1]; exact v2
    · intro h
      rw [h.unique v2]; exact v1

/-- C29: on a thread safe chain without source, reached by any valid history, let any number of threads allocate, free
and store data, their steps being interleaved in any order. The calls that got the lock so far, run one at a time in
the order in which they got it (`k.log`), are valid, give every call that is over the result it returned, and leave
live every block that a client owns; once no thread is in a call every call of the log is over, the live blocks are
those that the clients own, and the chain cannot be told from the one left by the sequential run. -/
theorem C29_linearizable_partial (hf : C.reallocFactor ≠ 0) (h0 : Reach S C pb s0 L0 B)
    (hts : s0.c.threadSafe = true) (h : KReach S C B s0 L0 k) :
    ∃ s rs L, Run S C pb s0 L0 B k.log rs s L B ∧ (∀ i r, k.ret i = some r → rs[i]? = some r) ∧
      (∀ l ∈ k.live, l ∈ L) ∧
      (k.Quiescent → (∀ i, i < k.log.length → k.ret i ≠ none) ∧ (∀ l ∈ L, l ∈ k.live) ∧ SameChain S C pb L B s k.s) := by
  obtain ⟨s, rs, L, A, H⟩ := kreach_inv hf h0 hts h
  exact H.linear hf h0

/-- C29: no step of a thread that follows the rules fails, whatever the others do. -/
theorem C29_no_failure_partial (hf : C.reallocFactor ≠ 0) (h0 : Reach S C pb s0 L0 B)
    (hts : s0.c.threadSafe = true) (h : KReach S C B s0 L0 k) {t : Nat} {a : KAct}
    (hv : k.pc t = .idle → KValid B k a) : ∃ k', kstep S C k t a = .ok k' := by
  obtain ⟨s, rs, L, A, H⟩ := kreach_inv hf h0 hts h
  obtain ⟨k', e, _⟩ := H.step hf h0 hv
  exact ⟨k', e⟩

/-- C29: the blocks that the clients own never overlap and hold what was stored in them, at every moment and not only
when no call is running. -/
theorem C29_blocks_partial (hf : C.reallocFactor ≠ 0) (h0 : Reach S C pb s0 L0 B)
    (hts : s0.c.threadSafe = true) (h : KReach S C B s0 L0 k) :
    (∀ l ∈ k.live, ∀ l' ∈ k.live, l ≠ l' → l.Disj l') ∧
    ∀ l ∈ k.live, ∀ x, l.Byte x → ∀ v, k.data x = some v → k.s.w.mem x = v := by
  obtain ⟨s, rs, L, A, H⟩ := kreach_inv hf h0 hts h
  refine ⟨?_, H.data⟩
  intro l hl l' hl' hne x hx
  obtain ⟨g0, c, hc, g1, g2, _⟩ := H.owned hl
  obtain ⟨g0', c', hc', g1', g2', _⟩ := H.owned hl'
  have hcc : c ≠ c' := by
    rintro rfl
    exact hne (ptr_unique (H.nodup hf h0) g0 g0' (g1.symm.trans g1'))
  have := H.wf.has_disj hc.1 hc'.1 hcc
  have := H.wf.uptr_ge c
  have := H.wf.uptr_ge c'
  obtain ⟨⟨h1, h2⟩, h3, h4⟩ := hx
  omega

/-- C29: at most one thread is between lock and unlock. -/
theorem C29_one_at_a_time (hf : C.reallocFactor ≠ 0) (h0 : Reach S C pb s0 L0 B)
    (hts : s0.c.threadSafe = true) (h : KReach S C B s0 L0 k) {t u : Nat}
    (ht : (∃ b n, k.pc t = .allocCrit b n) ∨ (∃ b n v i, k.pc t = .allocUnlock b n v i) ∨
      (∃ p v, k.pc t = .freeCrit p v) ∨ ∃ i, k.pc t = .freeUnlock i)
    (hu : (∃ b n, k.pc u = .allocCrit b n) ∨ (∃ b n v i, k.pc u = .allocUnlock b n v i) ∨
      (∃ p v, k.pc u = .freeCrit p v) ∨ ∃ i, k.pc u = .freeUnlock i) : t = u := by
  obtain ⟨s, rs, L, A, H⟩ := kreach_inv hf h0 hts h
  have key : ∀ w, ((∃ b n, k.pc w = .allocCrit b n) ∨ (∃ b n v i, k.pc w = .allocUnlock b n v i) ∨
      (∃ p v, k.pc w = .freeCrit p v) ∨ ∃ i, k.pc w = .freeUnlock i) → holdsOf (k.pc w) = true := by
    rintro w (⟨b, n, e⟩ | ⟨b, n, v, i, e⟩ | ⟨p, v, e⟩ | ⟨i, e⟩) <;> rw [e] <;> rfl
  exact H.lock.one t u (key t ht) (key u hu)

/-! ### Order of the calls, progress -/

/-- Steps that the threads make from a state. -/
inductive KSteps (S : Source σ) (C : Config) (B : List (Nat × Nat)) : KS σ → KS σ → Prop
  | refl (k : KS σ) : KSteps S C B k k
  | step {k k' k'' : KS σ} {t : Nat} {a : KAct} : (k.pc t = .idle → KValid B k a) → kstep S C k t a = .ok k' →
      KSteps S C B k' k'' → KSteps S C B k k''

theorem KSteps.trans {k k' k'' : KS σ} (h : KSteps S C B k k') (h' : KSteps S C B k' k'') : KSteps S C B k k'' := by
  induction h with
  | refl => exact h'
  | step hv e _ ih => exact .step hv e (ih h')

theorem KReach.steps {k k' : KS σ} (h : KReach S C B s0 L0 k) (h' : KSteps S C B k k') : KReach S C B s0 L0 k' := by
  induction h' with
  | refl => exact h
  | step hv e _ ih => exact ih (h.step hv e)

/-- A step enters at most one call in the log, at the end. -/
theorem kstep_log {k k' : KS σ} {t : Nat} {a : KAct} (e : kstep S C k t a = .ok k') :
    k'.log = k.log ∨ ∃ op, k'.log = k.log ++ [op] := by
  unfold kstep at e
  split at e
  · unfold kstart at e
    split at e
    · split at e <;> cases e
      · exact Or.inr ⟨_, rfl⟩
      · exact Or.inl rfl
    · split at e <;> cases e
      · exact Or.inr ⟨_, rfl⟩
      · exact Or.inl rfl
    · cases e; exact Or.inr ⟨_, rfl⟩
  · cases e; exact Or.inl rfl
  · cases e; exact Or.inl rfl
  · obtain ⟨⟨s, v⟩, _, e⟩ := Outcome.bind_eq_ok e
    cases e; exact Or.inr ⟨_, rfl⟩
  · cases e; exact Or.inl rfl
  · cases e; exact Or.inl rfl
  · obtain ⟨v, _, e⟩ := Outcome.bind_eq_ok e
    split at e
    · split at e
      · cases e
      · cases e; exact Or.inr ⟨_, rfl⟩
    · split at e
      · cases e
      · cases e; exact Or.inl rfl
  · cases e; exact Or.inl rfl
  · cases e; exact Or.inl rfl
  · obtain ⟨s, _, e⟩ := Outcome.bind_eq_ok e
    cases e; exact Or.inr ⟨_, rfl⟩
  · cases e; exact Or.inl rfl

/-- C29: the order of the log respects real time. The calls entered in the log before some moment stay there, at the
same rank; a call that is over at that moment is one of them, and a call that starts later gets a later rank. -/
theorem C29_real_time (hf : C.reallocFactor ≠ 0) (h0 : Reach S C pb s0 L0 B)
    (hts : s0.c.threadSafe = true) (h : KReach S C B s0 L0 k) {k' : KS σ} (h' : KSteps S C B k k') :
    k.log <+: k'.log ∧ ∀ i r, k.ret i = some r → i < k.log.length := by
  constructor
  · clear h
    induction h' with
    | refl => exact List.prefix_refl _
    | step _ e _ ih =>
      refine List.IsPrefix.trans ?_ ih
      rcases kstep_log e with h | ⟨op, h⟩
      · exact h ▸ List.prefix_refl _
      · rw [h]; exact List.prefix_append _ _
  · intro i r hr
    obtain ⟨s, rs, L, A, H⟩ := kreach_inv hf h0 hts h
    have := H.ret i r hr
    rw [← H.run.length]
    exact (List.getElem?_eq_some_iff.1 this).1

/-- Number of steps to the end of a call when the lock is free or held by the thread. -/
def kleft : KPc → Nat
  | .idle => 0
  | .allocPad _ _ _ _ => 1
  | .allocUnlock _ _ _ _ => 2
  | .allocCrit _ _ => 3
  | .allocSwap _ _ => 4
  | .allocLoad _ _ => 5
  | .freeUnlock _ => 1
  | .freeCrit _ _ => 2
  | .freeSwap _ _ => 3
  | .freeLoad _ _ => 4
  | .freeRead _ => 4

theorem kstep_pc {k k' : KS σ} {t : Nat} {a : KAct} (e : kstep S C k t a = .ok k') (hn : k.pc t ≠ .idle)
    (hl : k.s.c.lock = false ∨ holdsOf (k.pc t) = true) :
    kleft (k'.pc t) < kleft (k.pc t) ∧ ∀ u, u ≠ t → k'.pc u = k.pc u := by
  have hg : ∀ (q : KS σ) (P : KPc), (q.goto t P).pc t = P ∧ ∀ u, u ≠ t → (q.goto t P).pc u = q.pc u := by
    intro q P
    exact ⟨if_pos rfl, fun u hu => if_neg hu⟩
  unfold kstep at e
  split at e
  · rename_i h; exact absurd h hn
  · rename_i b n h
    have hlk : k.s.c.lock = false := by
      rcases hl with g | g
      · exact g
      · rw [h] at g; cases g
    rw [hlk] at e
    cases e
    refine ⟨?_, (hg _ _).2⟩
    rw [(hg _ _).1, h]; exact Nat.lt_of_sub_pos (by simp [kleft])
  · rename_i b n h
    have hlk : k.s.c.lock = false := by
      rcases hl with g | g
      · exact g
      · rw [h] at g; cases g
    rw [hlk] at e
    cases e
    refine ⟨?_, (hg _ _).2⟩
    rw [(hg _ _).1, h]; exact Nat.lt_of_sub_pos (by simp [kleft])
  · rename_i b n h
    obtain ⟨⟨s, v⟩, _, e⟩ := Outcome.bind_eq_ok e
    cases e
    refine ⟨?_, (hg _ _).2⟩
    rw [(hg _ _).1, h]; exact Nat.lt_of_sub_pos (by simp [kleft])
  · rename_i b n v i h
    cases e
    refine ⟨?_, (hg _ _).2⟩
    rw [(hg _ _).1, h]; exact Nat.lt_of_sub_pos (by simp [kleft])
  · rename_i b n v i h
    cases e
    refine ⟨?_, (hg _ _).2⟩
    rw [(hg _ _).1, h]; exact Nat.lt_of_sub_pos (by simp [kleft])
  · rename_i p h
    obtain ⟨v, _, e⟩ := Outcome.bind_eq_ok e
    split at e
    · split at e
      · cases e
      · cases e
        refine ⟨?_, (hg _ _).2⟩
        rw [(hg _ _).1, h]; exact Nat.lt_of_sub_pos (by simp [kleft])
    · split at e
      · cases e
      · cases e
        refine ⟨?_, (hg _ _).2⟩
        rw [(hg _ _).1, h]; exact Nat.lt_of_sub_pos (by simp [kleft])
  · rename_i p v h
    have hlk : k.s.c.lock = false := by
      rcases hl with g | g
      · exact g
      · rw [h] at g; cases g
    rw [hlk] at e
    cases e
    refine ⟨?_, (hg _ _).2⟩
    rw [(hg _ _).1, h]; exact Nat.lt_of_sub_pos (by simp [kleft])
  · rename_i p v h
    have hlk : k.s.c.lock = false := by
      rcases hl with g | g
      · exact g
      · rw [h] at g; cases g
    rw [hlk] at e
    cases e
    refine ⟨?_, (hg _ _).2⟩
    rw [(hg _ _).1, h]; exact Nat.lt_of_sub_pos (by simp [kleft])
  · rename_i p v h
    obtain ⟨s, _, e⟩ := Outcome.bind_eq_ok e
    cases e
    refine ⟨?_, (hg _ _).2⟩
    rw [(hg _ _).1, h]; exact Nat.lt_of_sub_pos (by simp [kleft])
  · rename_i i h
    cases e
    refine ⟨?_, (hg _ _).2⟩
    rw [(hg _ _).1, h]; exact Nat.lt_of_sub_pos (by simp [kleft])

/-- A thread that runs alone while nobody else has the lock finishes its call. -/
theorem kfinish (hf : C.reallocFactor ≠ 0) (h0 : Reach S C pb s0 L0 B) (hts : s0.c.threadSafe = true) (t : Nat) (N : Nat) :
    ∀ {k : KS σ}, KReach S C B s0 L0 k → kleft (k.pc t) ≤ N → (∀ u, holdsOf (k.pc u) = true → u = t) →
      ∃ k', KSteps S C B k k' ∧ k'.pc t = .idle ∧ (∀ u, u ≠ t → k'.pc u = k.pc u) := by
  induction N with
  | zero =>
    intro k _ hN _
    refine ⟨k, .refl k, ?_, fun _ _ => rfl⟩
    cases h : k.pc t <;> rw [h] at hN <;> first | rfl | (simp [kleft] at hN)
  | succ N ih =>
    intro k hk hN hown
    by_cases hi : k.pc t = .idle
    · exact ⟨k, .refl k, hi, fun _ _ => rfl⟩
    obtain ⟨s, rs, L, A, H⟩ := kreach_inv hf h0 hts hk
    have hl : k.s.c.lock = false ∨ holdsOf (k.pc t) = true := by
      cases hlk : k.s.c.lock with
      | false => exact Or.inl rfl
      | true =>
        obtain ⟨u, hu⟩ := H.lock.iff.1 hlk
        rw [hown u hu] at hu
        exact Or.inr hu
    have hv : k.pc t = .idle → KValid B k (.free 0) := fun h => absurd h hi
    obtain ⟨k1, e1, _⟩ := H.step hf h0 hv
    obtain ⟨p1, p2⟩ := kstep_pc e1 hi hl
    have hown1 : ∀ u, holdsOf (k1.pc u) = true → u = t := by
      intro u hu
      by_contra hne
      rw [p2 u hne] at hu
      exact hne (hown u hu)
    obtain ⟨k2, s2, q1, q2⟩ := ih (hk.step hv e1) (by omega) hown1
    exact ⟨k2, .step hv e1 s2, q1, fun u hu => by rw [q2 u hu, p2 u hu]⟩

/-- C29: no thread is stuck. Whatever state the threads have reached, there are steps of the thread that has the lock,
if there is one, then of any thread we choose, after which that thread is out of its call. -/
theorem C29_progress (hf : C.reallocFactor ≠ 0) (h0 : Reach S C pb s0 L0 B)
    (hts : s0.c.threadSafe = true) (h : KReach S C B s0 L0 k) (t : Nat) :
    ∃ k', KSteps S C B k k' ∧ k'.pc t = .idle := by
  obtain ⟨s, rs, L, A, H⟩ := kreach_inv hf h0 hts h
  by_cases hlk : ∃ u, holdsOf (k.pc u) = true
  · obtain ⟨u, hu⟩ := hlk
    obtain ⟨k1, s1, g1, g2⟩ := kfinish hf h0 hts u _ h (Nat.le_refl _) (fun w hw => H.lock.one w u hw hu)
    have hno : ∀ w, holdsOf (k1.pc w) ≠ true := by
      intro w hw
      by_cases hwu : w = u
      · rw [hwu, g1] at hw; cases hw
      · rw [g2 w hwu] at hw
        exact hwu (H.lock.one w u hw hu)
    obtain ⟨k2, s2, g3, _⟩ := kfinish hf h0 hts t _ (h.steps s1) (Nat.le_refl _) (fun w hw => absurd hw (hno w))
    exact ⟨k2, s1.trans s2, g3⟩
  · obtain ⟨k1, s1, g1, _⟩ := kfinish hf h0 hts t _ h (Nat.le_refl _) (fun w hw => absurd ⟨w, hw⟩ hlk)
    exact ⟨k1, s1, g1⟩

/-! ### The hypotheses can be met -/

/-- A thread safe chain over a buffer of 4096 bytes; a thread got the block at `p`, no thread is in a call. -/
theorem thread_block : ∃ (s : CS Unit) (p : Nat) (k : KS Unit),
    Reach S0 Config.default 4096 s [] [(8192, 4096)] ∧ s.c.threadSafe = true ∧
    KReach S0 Config.default [(8192, 4096)] s [] k ∧ p ≠ 0 ∧ k.s.c.lock = false ∧
    (∀ u, k.pc u = .idle) ∧ k.live = [⟨p, 100, true⟩] ∧ k.log = [.alloc 0 100] ∧ k.ret 0 = some p := by
  obtain ⟨s, R, hnm, hts⟩ := fresh_reach_ts sampleBuf_4096 true false
  obtain ⟨A, H⟩ := reach_inv default_factor R
  have hseg := H.one_seg hnm
  have hF : A.Has ⟨8192 + 32, 4096 - 48, .free⟩ := ⟨_, by rw [hseg]; exact List.mem_singleton.2 rfl, by simp⟩
  obtain ⟨s1, A1, c, d, e1, G, hne, _, _, _⟩ := alloc_some (b := 0) (n := 100) default_factor R H (Or.inl (by omega))
    (by omega) hF rfl (by simp only; omega) (by simp)
  unfold allocAlign at e1
  rw [if_neg (by simp [H.inv.dead]), if_neg (by omega)] at e1
  have hh : ∀ z, isHuge s.c z = false := by intro z; simp [isHuge, H.src]
  simp only [Nat.not_lt_zero, gt_iff_lt, if_false, hh, Bool.false_eq_true] at e1
  obtain ⟨s2, el, e1⟩ := Outcome.bind_eq_ok e1
  rw [lockIf_ok H.inv.dead H.inv.lock, hts] at el
  cases el
  obtain ⟨⟨s3, v⟩, ea, e1⟩ := Outcome.bind_eq_ok e1
  obtain ⟨s4, eu, e1⟩ := Outcome.bind_eq_ok e1
  have hv0 : v ≠ 0 := by
    intro h
    simp only [h, if_true] at e1
    exact hne (congrArg Prod.snd (Outcome.ok.inj e1)).symm
  have hp : chunkBody v ≠ 0 := by
    simp only [hv0, if_false] at e1
    have := congrArg Prod.snd (Outcome.ok.inj e1)
    unfold padAndReturn at this
    simp only [gt_iff_lt, Nat.not_lt_zero, if_false, hv0] at this
    rw [this]; exact hne
  have hb0 : GoodBound 0 := Or.inl (by omega)
  have hbuf : ∀ b n, b ≤ 64 → n ≤ 300 → SizeOK [(8192, 4096)] b n := fun b n _ _ => Or.inl (by split <;> omega)
  have K0 : KReach S0 Config.default [(8192, 4096)] s [] _ := .init
  have K1 := K0.step (t := 2) (a := .alloc 0 100) (fun _ => ⟨hb0, hbuf _ _ (by omega) (by omega)⟩) rfl
  have K2 := K1.step (t := 2) (a := .free 0) (fun h => by cases h) rfl
  have K3 := K2.step (t := 2) (a := .free 0) (fun h => by
    simp [KS.goto, KS.setLock, H.inv.lock] at h) (by
    unfold kstep
    simp only [KS.goto, KS.setLock, H.inv.lock, if_true, Bool.false_eq_true, if_false, Nat.not_lt_zero, gt_iff_lt]
    rw [ea, Outcome.ok_bind]
    rfl)
  have K4 := K3.step (t := 2) (a := .free 0) (fun h => by simp [KS.goto] at h) (by
    unfold kstep
    simp only [KS.goto, if_true]
    rfl)
  have K5 := K4.step (t := 2) (a := .free 0) (fun h => by simp at h) (by
    unfold kstep
    simp only [KS.goto, if_true, hv0, if_false, padAndReturn, gt_iff_lt, Nat.not_lt_zero, KS.give, KS.return, KS.enter,
      KS.setLock, account, hp, List.nil_append, List.length_nil]
    rfl)
  refine ⟨s, chunkBody v, _, R, hts, K5, hp, rfl, ?_, rfl, rfl, rfl⟩
  intro u
  show (if u = 2 then KPc.idle else _) = _
  split <;> rfl

/-- Three threads are in a call: one has the lock, one waits for it, and one is about to free the block at `p`, which it
allocated before. -/
theorem three_threads : ∃ (s : CS Unit) (p : Nat) (k : KS Unit),
    Reach S0 Config.default 4096 s [] [(8192, 4096)] ∧ s.c.threadSafe = true ∧
    KReach S0 Config.default [(8192, 4096)] s [] k ∧
    k.pc 0 = .allocCrit 64 300 ∧ k.pc 1 = .allocLoad 0 40 ∧ k.pc 2 = .freeRead p ∧ k.log = [.alloc 0 100] ∧
    k.ret 0 = some p := by
  obtain ⟨s, p, k, R, hts, K5, hp, hlock, hidle, hlive, hlog, hret⟩ := thread_block
  have hb0 : GoodBound 0 := Or.inl (by omega)
  have hbuf : ∀ b n, b ≤ 64 → n ≤ 300 → SizeOK [(8192, 4096)] b n := fun b n _ _ => Or.inl (by split <;> omega)
  have K6 := K5.step (t := 2) (a := .free p) (fun h => Or.inr ⟨_, by rw [hlive]; exact List.mem_cons_self, rfl⟩) (by
    unfold kstep
    rw [hidle]
    unfold kstart
    simp only [hp, if_false]
    rfl)
  have K7 := K6.step (t := 0) (a := .alloc 64 300) (fun _ => ⟨Or.inr ⟨6, rfl⟩, hbuf _ _ (by omega) (by omega)⟩)
    (k' := _) (by unfold kstep; simp only [KS.goto]; rw [if_neg (by omega), hidle]; rfl)
  have K8 := K7.step (t := 0) (a := .free 0) (fun h => by simp [KS.goto] at h) rfl
  have K9 := K8.step (t := 1) (a := .alloc 0 40) (fun _ => ⟨hb0, hbuf _ _ (by omega) (by omega)⟩)
    (by unfold kstep; simp only [KS.goto, KS.setLock]; rw [if_neg (by omega), if_neg (by omega), if_neg (by omega), hidle]; rfl)
  have K10 := K9.step (t := 1) (a := .free 0) (fun h => by simp [KS.goto] at h) rfl
  refine ⟨s, p, _, R, hts, K10, ?_, rfl, rfl, hlog, hret⟩
  simp [KS.goto, KS.setLock, hlock]

/-- The hypotheses of the theorems above are met, with a history that is not finished; and there is a continuation in
which the thread that frees is done. -/
example : ∃ (s : CS Unit) (k : KS Unit), KReach S0 Config.default [(8192, 4096)] s [] k ∧ k.pc 2 = .idle ∧
    k.log.length ≥ 1 := by
  obtain ⟨s, p, k, R, hts, K, _, _, _, hlog, _⟩ := three_threads
  obtain ⟨k', h1, h2⟩ := C29_progress default_factor R hts K 2
  refine ⟨s, k', K.steps h1, h2, ?_⟩
  have := (C29_real_time default_factor R hts K h1).1.length_le
  rw [hlog] at this
  exact this

end MpcAlloc
