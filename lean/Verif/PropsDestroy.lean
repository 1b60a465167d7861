import Verif.DestroyLemmas
import Verif.PropsPosixNeg

/-
C33: the chain of a thread that has ended. What holds of the code is proved for all histories; the cases in which the property
fails (chain already empty, last block below the huge limit, two threads in the huge path) are proved too.
-/

namespace MpcAlloc

variable {Ω : Env}

/-! ## Helpers -/

/-- Everything the other threads do after the end of `t`. -/
theorem Later.mk {C : Config} {X : POp → Prop} {cl : Prop} {t : Nat} {s1 s0 sM : PS} {G0 G : PSpec} {c0 : Chain} {k0 : Bool}
    (hf : C.reallocFactor ≠ 0) (hX : cl → ∀ op, X op → CleanOp op) (M0 : Mk cl t s1 s0 G0 c0 k0)
    (h : Later C X t s1 G0 sM G) :
    ∃ s c k, Mk cl t sM s G c k ∧ c.cnt ≤ c0.cnt ∧ (c.cnt = 0 → k = true ∨ c0.cnt = 0) ∧ (c0.cnt = 0 → k = k0) := by
  induction h with
  | refl => exact ⟨s0, c0, k0, M0, Int.le_refl _, fun h => Or.inr h, fun _ => rfl⟩
  | @step sM sM' G op r _ hv hx ha e ih =>
    obtain ⟨s, c, k, M, h1, h2, h3⟩ := ih
    by_cases hF : FreeOf t G op
    · obtain ⟨u, l, hl, rfl, ho⟩ := hF
      obtain ⟨s', c', ⟨Ω', I'⟩, hc', hh, hle, rfl, hg, _, hr⟩ := M.free (C := C) hv.1 ha hl ho
      have hpos := (M.inv.chain M.get).2.2.2 l hl ho
      rcases hr with ⟨_, _, e'⟩ | ⟨_, e'⟩
      · rw [e'] at e; cases e
      · rw [e'] at e
        obtain ⟨rfl, rfl⟩ := Prod.mk.inj (Outcome.ok.inj e)
        refine ⟨s', c', decide (c'.cnt = 0), ⟨⟨_, I'⟩, hc', rfl, hh, ?_, of_decide_eq_true⟩, by omega,
          fun h => Or.inl (decide_eq_true h), fun h => by omega⟩
        intro m hm
        unfold PSpec.drain at hm
        rw [List.mem_filter, decide_eq_true_eq] at hm
        exact hm.2
    · rcases M.other (C := C) hf hv (fun z => hX z _ hx) ha hF with ⟨_, e'⟩ | ⟨sN, s', r', e', M'⟩
      · rw [e'] at e; cases e
      · rw [e'] at e
        obtain ⟨rfl, rfl⟩ := Prod.mk.inj (Outcome.ok.inj e)
        exact ⟨s', c, k, M', h1, h2, h3⟩

theorem Ended.mk {C : Config} {X : POp → Prop} {cl : Prop} {t : Nat} {sM : PS} {G : PSpec}
    (hf : C.reallocFactor ≠ 0) (hX : cl → ∀ op, X op → CleanOp op) (h : Ended C X t sM G) :
    ∃ s c k, Mk cl t sM s G c k := by
  obtain ⟨s0, G0, s1, hr, ht, e, hl⟩ := h
  obtain ⟨s', c', k, M, _⟩ := exit_mk (hr.inv hf hX) (List.getElem?_eq_getElem ht) e
  obtain ⟨s, c, k, M, _⟩ := hl.mk hf hX M
  exact ⟨s, c, k, M⟩

/-- The queue of a chain is empty when none of its blocks waits. -/
theorem PInv.noPend {s : PS} {G : PSpec} (I : PInv Ω True s G) {t : Nat} {c : Chain} (hc : s.chs[t]? = some c)
    (h : ∀ l ∈ G.pend, l.owner ≠ t) : c.rfqHead = 0 := by
  obtain ⟨H, L, P, B, K⟩ := I
  obtain ⟨c', g, hc', hg, T⟩ := B.get (List.getElem?_eq_some_iff.1 hc).1
  obtain rfl : c' = c := Option.some.inj (hc'.symm.trans hc)
  have hQ : g.Q = [] := by
    rw [List.eq_nil_iff_forall_not_mem]
    intro k hk
    have hu := T.q.used k hk
    obtain ⟨_, l, hl, ho, hp⟩ := (K.clean trivial t g hg).2 k hu
    rcases List.mem_append.1 hl with hl | hl
    · obtain ⟨g', k', hg', hu', hnq, hp', _⟩ := K.live l hl
      rw [ho] at hg'
      obtain rfl : g' = g := Option.some.inj (hg'.symm.trans hg)
      obtain ⟨_, rfl⟩ := B.inj hg hg hu hu' (by omega)
      exact hnq hk
    · exact h l hl ho
  have := T.q
  rw [hQ] at this
  exact this.list

/-- End of a thread none of whose blocks waits. -/
theorem exit_noPend {C : Config} {s : PS} {G : PSpec} (I : PInv Ω True s G) {t : Nat} {c : Chain} (hc : s.chs[t]? = some c)
    (h : ∀ l ∈ G.pend, l.owner ≠ t) : posixExit C s t = .ok (s.over t (c.marked false false)) := by
  have hq := I.noPend hc h
  obtain ⟨q, _⟩ := I.chain hc
  have h1 := q.dead
  have h2 := q.lock
  simp only at h1 h2
  unfold posixExit markForDestroy purgeRfq
  rw [PS.loc_eq hc, Outcome.ok_bind, if_neg (by simp [h1]), if_pos (by exact hq), Outcome.ok_bind, Outcome.pure_eq]
  congr 1
  unfold PS.put PS.over Chain.marked
  simp [h1, h2]

/-- Live blocks of a thread. -/
def PSpec.Of (G : PSpec) (t : Nat) (l : PBlock) : Prop := l ∈ G.live ∧ l.owner = t

theorem after_free_live {G : PSpec} {t u p r : Nat} {m : PBlock} :
    m ∈ ((G.after (.free u p) r).drain t).live ↔ m ∈ G.live ∧ m.ptr ≠ p := by
  unfold PSpec.after PSpec.del PSpec.drain
  simp only
  rw [List.mem_filter, decide_eq_true_eq]

/-! ## Theorems -/

/-- C33, at most once. In every state after the end of thread `t` its handler was called at most once; if it was, the chain
holds no bloc and no live block, and otherwise it has not been released. -/
theorem C33_once_partial {C : Config} {X : POp → Prop} {t : Nat} {s : PS} {G : PSpec} (hf : C.reallocFactor ≠ 0)
    (h : Ended C X t s G) :
    ∃ c, s.chs[t]? = some c ∧ c.handler = true ∧ c.threadSafe = true ∧
      ((c.calls = 0 ∧ c.dead = false) ∨ (c.calls = 1 ∧ c.dead = true ∧ c.cnt = 0 ∧ ∀ l, ¬ G.Of t l)) := by
  obtain ⟨s', c, k, M⟩ := h.mk (cl := False) hf False.elim
  obtain ⟨a1, a2, a3, a4⟩ := M.chain
  refine ⟨_, a1, rfl, rfl, ?_⟩
  cases k with
  | false => left; exact ⟨a2, a3⟩
  | true =>
    right
    have hz := M.gone rfl
    refine ⟨a2, a3, hz, fun l hl => ?_⟩
    have := (M.inv.chain M.get).2.2.2 l hl.1 hl.2
    omega

/-- C33, exactly when the last bloc goes. If thread `t` has a live block when it ends, then at any time afterwards its handler
was called once if its chain holds no bloc, and was not called if it holds one. -/
theorem C33_when_partial {C : Config} {X : POp → Prop} {t : Nat} {s0 s1 s : PS} {G0 G : PSpec} (hf : C.reallocFactor ≠ 0)
    (h0 : PReach C X s0 G0) (hl : ∃ l, G0.Of t l) (e : posixExit C s0 t = .ok s1) (h : Later C X t s1 (G0.drain t) s G) :
    ∃ c, s.chs[t]? = some c ∧ c.calls = if c.cnt = 0 then 1 else 0 := by
  have I0 := h0.inv (cl := False) hf False.elim
  obtain ⟨l, hl, ho⟩ := hl
  have ht : t < s0.chs.length := by
    have := (I0.disj.2 l (List.mem_append_left _ hl)).2.1
    omega
  obtain ⟨s', c', k', M', _⟩ := exit_mk I0 (List.getElem?_eq_getElem ht) e
  have hpos := (M'.inv.chain M'.get).2.2.2 l hl ho
  obtain ⟨s2, c, k, M, _, h2, _⟩ := h.mk hf False.elim M'
  obtain ⟨a1, a2, a3, a4⟩ := M.chain
  refine ⟨_, a1, ?_⟩
  rw [a2, a4]
  cases k with
  | false =>
    have : c.cnt ≠ 0 := fun hz => by
      rcases h2 hz with h | h
      · cases h
      · omega
    rw [if_neg this]; rfl
  | true => rw [if_pos (M.gone rfl)]; rfl

/-- C33, in terms of blocks: without requests just below the huge limit, the handler was called once if thread `t` has no live
block left, and was not called if it has one. -/
theorem C33_when_blocks_partial {C : Config} {t : Nat} {s0 s1 s : PS} {G0 G : PSpec} (hf : C.reallocFactor ≠ 0)
    (h0 : PReach C CleanOp s0 G0) (hl : ∃ l, G0.Of t l) (e : posixExit C s0 t = .ok s1)
    (h : Later C CleanOp t s1 (G0.drain t) s G) :
    ∃ c, s.chs[t]? = some c ∧ (c.calls = 1 ↔ ∀ l, ¬ G.Of t l) ∧ (c.calls = 0 ↔ ∃ l, G.Of t l) := by
  obtain ⟨c, hc, hcalls⟩ := C33_when_partial hf h0 hl e h
  have I0 := h0.inv (cl := True) hf (fun _ _ h => h)
  obtain ⟨l, hl, ho⟩ := hl
  have ht : t < s0.chs.length := by
    have := (I0.disj.2 l (List.mem_append_left _ hl)).2.1
    omega
  obtain ⟨s', c', k', M', _⟩ := exit_mk I0 (List.getElem?_eq_getElem ht) e
  obtain ⟨s2, d, k, M, _, h2, _⟩ := h.mk hf (fun _ _ h => h) M'
  obtain ⟨a1, a2, a3, a4⟩ := M.chain
  obtain rfl := Option.some.inj (a1.symm.trans hc)
  rw [a4] at hcalls
  have hch := M.inv.chain M.get
  have key : d.cnt = 0 ↔ ∀ l, ¬ G.Of t l := by
    constructor
    · intro hz l hl
      have := hch.2.2.2 l hl.1 hl.2
      omega
    · intro hn
      refine M.inv.chain_empty M.get (fun l hl ho => ?_)
      rcases List.mem_append.1 hl with hl | hl
      · exact hn l ⟨hl, ho⟩
      · exact M.pend l hl ho
  refine ⟨_, hc, ?_, ?_⟩
  · rw [← key, hcalls]
    by_cases hz : d.cnt = 0 <;> simp [hz]
  · rw [← not_forall_not, ← key, hcalls]
    by_cases hz : d.cnt = 0 <;> simp [hz]

/-- C33: a thread that has a live block can end, and its chain stays. -/
theorem C33_exit_partial {C : Config} {X : POp → Prop} {t : Nat} {s : PS} {G : PSpec} (hf : C.reallocFactor ≠ 0)
    (h : PReach C X s G) (hl : ∃ l, G.Of t l) :
    ∃ s1 c, posixExit C s t = .ok s1 ∧ s1.chs[t]? = some c ∧ c.calls = 0 ∧ c.dead = false := by
  have I := h.inv (cl := False) hf False.elim
  have hl' := hl
  obtain ⟨l, hl, ho⟩ := hl
  have ht : t < s.chs.length := by
    have := (I.disj.2 l (List.mem_append_left _ hl)).2.1
    omega
  have hc := List.getElem?_eq_getElem ht
  obtain ⟨u, e1, I1, _⟩ := purge_eff (C := C) I hc
  have hc1 := PS.put_get u ht
  have hpos := (I1.chain hc1).2.2.2 l hl ho
  obtain ⟨s1, e⟩ := exit_ok I hc e1 (Or.inl hpos)
  obtain ⟨s', c', k', M, _⟩ := exit_mk I hc e
  obtain ⟨a1, a2, a3, a4⟩ := M.chain
  have hpos' := (M.inv.chain M.get).2.2.2 l hl ho
  have hk : k' = false := by
    cases k' with
    | false => rfl
    | true => have := M.gone rfl; omega
  subst hk
  exact ⟨s1, _, e, a1, a2, a3⟩

/-- C33: the other threads are not disturbed. A call of another thread for which there is memory succeeds, unless it frees the
last live block of `t`; the handler is not called then. -/
theorem C33_calls_partial {C : Config} {X : POp → Prop} {t : Nat} {s : PS} {G : PSpec} {op : POp} (hf : C.reallocFactor ≠ 0)
    (h : Ended C X t s G) (hv : PValid s G op) (ha : AfterExit t G op) (hm : OpMem s op)
    (hlast : ∀ u l, op = .free u l.ptr → G.Of t l → ∃ m, G.Of t m ∧ m.ptr ≠ l.ptr) :
    ∃ s' r c c', pexec C s op = .ok (s', r) ∧ s.chs[t]? = some c ∧ s'.chs[t]? = some c' ∧ c'.calls = c.calls ∧
      c'.dead = c.dead := by
  obtain ⟨s0, c, k, M⟩ := h.mk (cl := False) hf False.elim
  obtain ⟨a1, a2, a3, a4⟩ := M.chain
  by_cases hF : FreeOf t G op
  · obtain ⟨u, l, hl, rfl, ho⟩ := hF
    obtain ⟨s', c', ⟨Ω', I'⟩, hc', hh, hle, rfl, hg, _, hr⟩ := M.free (C := C) hv.1 ha hl ho
    obtain ⟨m, hm1, hm2⟩ := hlast u l rfl ⟨hl, ho⟩
    have hpos := (I'.chain hc').2.2.2 m (after_free_live.2 ⟨hm1.1, hm2⟩) hm1.2
    rcases hr with ⟨h0, _⟩ | ⟨_, e⟩
    · omega
    · refine ⟨_, _, _, _, e, a1, PS.over_get _ (List.getElem?_eq_some_iff.1 hc').1, ?_, ?_⟩
      · rw [a2, decide_eq_false (by omega)]
        exact (I'.chain hc').2.1
      · rw [a3, decide_eq_false (by omega)]; rfl
  · rcases M.other (C := C) hf hv False.elim ha hF with ⟨h1, _⟩ | ⟨sN, s', r', e', M'⟩
    · exact absurd hm h1
    · obtain ⟨b1, b2, b3, b4⟩ := M'.chain
      exact ⟨sN, r', _, _, e', a1, b1, rfl, rfl⟩

/-- The free of the last block of `t` by another thread. -/
theorem last_free {C : Config} {t u : Nat} {s : PS} {G : PSpec} {l : PBlock} {z : Nat} (hf : C.reallocFactor ≠ 0)
    (h : Ended C CleanOp t s G) (hl : G.Of t l) (hp : l.plain = true) (hone : ∀ m, G.Of t m → m.ptr = l.ptr)
    (hu : u < s.chs.length) (hne : u ≠ t) (hz : posixGetSize s.w.mem l.ptr = .ok z) :
    (calcChunkSize (z + 16) ≤ 1048576 ∧ pexec C s (.free u l.ptr) = .ub) ∨
    (1048576 < calcChunkSize (z + 16) ∧ ∃ s' c, pexec C s (.free u l.ptr) = .ok (s', 0) ∧ s'.chs[t]? = some c ∧
      c.calls = 1 ∧ c.cnt = 0) := by
  obtain ⟨s0, c, k, M⟩ := h.mk (cl := True) hf (fun _ _ h => h)
  obtain ⟨s', c', ⟨Ω', I'⟩, hc', hh, hle, rfl, hg, hgz, hr⟩ := M.free (C := C) hu hne hl.1 hl.2
  have hgz := hgz hp z (by rw [← M.world]; exact hz)
  have h0 : c'.cnt = 0 := by
    refine I'.chain_empty hc' (fun m hm ho => ?_)
    rcases List.mem_append.1 hm with hm | hm
    · obtain ⟨hm1, hm2⟩ := after_free_live.1 hm
      exact hm2 (hone m ⟨hm1, ho⟩)
    · unfold PSpec.drain at hm
      rw [List.mem_filter, decide_eq_true_eq] at hm
      exact hm.2 ho
  rcases hr with ⟨_, hn, e⟩ | ⟨hh, e⟩
  · left
    rw [hgz] at hn
    exact ⟨by omega, e⟩
  · right
    refine ⟨hgz.1 (hh h0), _, _, e, PS.over_get _ (List.getElem?_eq_some_iff.1 hc').1, ?_, h0⟩
    rw [decide_eq_true h0]
    show c'.calls + 1 = 1
    rw [(I'.chain hc').2.1]

/-- C33, the last block is huge: its free by another thread calls the handler. -/
theorem C33_last_huge_partial {C : Config} {t u : Nat} {s : PS} {G : PSpec} {l : PBlock} {z : Nat} (hf : C.reallocFactor ≠ 0)
    (h : Ended C CleanOp t s G) (hl : G.Of t l) (hp : l.plain = true) (hone : ∀ m, G.Of t m → m.ptr = l.ptr)
    (hu : u < s.chs.length) (hne : u ≠ t) (hz : posixGetSize s.w.mem l.ptr = .ok z)
    (hbig : 1048576 < calcChunkSize (z + 16)) :
    ∃ s' c, pexec C s (.free u l.ptr) = .ok (s', 0) ∧ s'.chs[t]? = some c ∧ c.calls = 1 ∧ c.cnt = 0 := by
  rcases last_free hf h hl hp hone hu hne hz with ⟨h1, _⟩ | ⟨_, h2⟩
  · omega
  · exact h2

/-- C33 is false when the last block is not huge, whatever happened before: the handler releases the chain inside the locked part
of `sctk_alloc_chain_free`, which then unlocks the released chain. -/
theorem C33_refuted_locked {C : Config} {t u : Nat} {s : PS} {G : PSpec} {l : PBlock} {z : Nat} (hf : C.reallocFactor ≠ 0)
    (h : Ended C CleanOp t s G) (hl : G.Of t l) (hp : l.plain = true) (hone : ∀ m, G.Of t m → m.ptr = l.ptr)
    (hu : u < s.chs.length) (hne : u ≠ t) (hz : posixGetSize s.w.mem l.ptr = .ok z)
    (hsmall : calcChunkSize (z + 16) ≤ 1048576) : pexec C s (.free u l.ptr) = .ub := by
  rcases last_free hf h hl hp hone hu hne hz with ⟨_, h1⟩ | ⟨h2, _⟩
  · exact h1
  · omega

/-- C33 is false when the chain is already empty at the end of its thread: the handler is never called. -/
theorem C33_refuted_empty {C : Config} {t : Nat} {s0 : PS} {G0 : PSpec} (hf : C.reallocFactor ≠ 0)
    (h : PReach C CleanOp s0 G0) (ht : t < s0.chs.length) (hl : ∀ l ∈ G0.live ++ G0.pend, l.owner ≠ t) :
    ∃ s1, posixExit C s0 t = .ok s1 ∧ ∀ s G, Later C CleanOp t s1 (G0.drain t) s G →
      ∃ c, s.chs[t]? = some c ∧ c.cnt = 0 ∧ c.calls = 0 ∧ c.dead = false := by
  have I := h.inv (cl := True) hf (fun _ _ h => h)
  have hc := List.getElem?_eq_getElem ht
  have hz := I.chain_empty hc hl
  have e := exit_noPend (C := C) I hc (fun l h => hl l (List.mem_append_right _ h))
  refine ⟨_, e, fun s G hL => ?_⟩
  obtain ⟨s', c', k', M, _⟩ := exit_mk I hc e
  have hd : G0.drain t = G0 := drain_self (fun l h => hl l (List.mem_append_right _ h))
  have hz' : c'.cnt = 0 := M.inv.chain_empty M.get (by rw [hd]; exact hl)
  have hs1 := PS.over_get (s := s0) ((s0.chs[t]).marked false false) ht
  have hk : k' = false := by
    have := M.chain
    have h1 := Option.some.inj (this.1.symm.trans hs1)
    rw [← this.2.2.1, h1]; rfl
  subst hk
  obtain ⟨s2, d, k, M2, hle, _, h3⟩ := hL.mk hf (fun _ _ h => h) M
  obtain ⟨a1, a2, a3, a4⟩ := M2.chain
  have hk := h3 hz'
  subst hk
  have := (M2.inv.chain M2.get).2.2.1
  exact ⟨_, a1, by rw [a4]; omega, a2, a3⟩

/-! ## Concrete cases -/

/-- A thread that ended with one block, in a process with two threads. -/
theorem sample_ended {C : Config} (hf : C.reallocFactor ≠ 0) {n : Nat} (hn : 0 < n) (hs : PSize n) (h30 : n ≤ 1073741824)
    (hc : CleanSize n) :
    ∃ s0 s r z, PReach C CleanOp s0 ⟨[⟨0, r, n, true⟩], []⟩ ∧ posixExit C s0 0 = .ok s ∧
      Ended C CleanOp 0 s ⟨[⟨0, r, n, true⟩], []⟩ ∧ s.chs.length = 2 ∧
      posixGetSize s.w.mem r = .ok z ∧
      ((calcChunkSize n ≤ 1048576 ∧ z + 16 < cutSize n + 32) ∨ (1048576 < calcChunkSize n ∧ z + 16 = blocSize n - 48)) := by
  have hr : reqSize 0 n = n := by unfold reqSize; rw [if_neg (by omega), if_neg (by omega)]; rfl
  obtain ⟨s, r, h, hl, hr0, s0, h0, hl0, _, e⟩ := sample_block hf (X := CleanOp) (fun _ _ _ => trivial) hn hs h30
    (by show CleanSize (reqSize 0 n); rw [hr]; exact hc)
  obtain ⟨z, hz, hk⟩ := malloc_size (h0.inv (cl := True) hf (fun _ _ h => h)) (by omega) (by omega) hs e
  have I := h.inv (cl := True) hf (fun _ _ h => h)
  have ht : 0 < s.chs.length := by omega
  have ex := exit_noPend (C := C) I (List.getElem?_eq_getElem ht) (fun l hl => by cases hl)
  refine ⟨s, _, r, z, h, ex, ⟨s, _, _, h, ht, ex, .refl⟩, ?_, hz, hk⟩
  rw [PS.over_len]; exact hl

/-- Hypotheses of `C33_once_partial`, `C33_when_partial`, `C33_exit_partial` and `C33_calls_partial`. -/
example : ∃ s0 s r, PReach Config.default CleanOp s0 ⟨[⟨0, r, 100, true⟩], []⟩ ∧ posixExit Config.default s0 0 = .ok s ∧
    (∃ l, PSpec.Of ⟨[⟨0, r, 100, true⟩], []⟩ 0 l) ∧ Ended Config.default CleanOp 0 s ⟨[⟨0, r, 100, true⟩], []⟩ ∧
    PValid s ⟨[⟨0, r, 100, true⟩], []⟩ (.free 1 0) ∧ AfterExit 0 ⟨[⟨0, r, 100, true⟩], []⟩ (.free 1 0) ∧
    OpMem s (.free 1 0) := by
  obtain ⟨s0, s, r, z, h0, e, h, hl, _⟩ := sample_ended (C := Config.default) (by decide) (n := 100) (by omega)
    (by unfold PSize; omega) (by omega) (by unfold CleanSize; omega)
  exact ⟨s0, s, r, h0, e, ⟨_, List.mem_singleton.2 rfl, rfl⟩, h, ⟨by omega, Or.inl rfl⟩, by unfold AfterExit; omega, trivial⟩

/-- Hypotheses of `C33_last_huge_partial`: one block of 1500000 bytes. The handler is called by the other thread. -/
example : ∃ s r s' c, Ended Config.default CleanOp 0 s ⟨[⟨0, r, 1500000, true⟩], []⟩ ∧
    pexec Config.default s (.free 1 r) = .ok (s', 0) ∧ s'.chs[0]? = some c ∧ c.calls = 1 := by
  obtain ⟨s0, s, r, z, h0, e, h, hl, hz, hk⟩ := sample_ended (C := Config.default) (by decide) (n := 1500000) (by omega)
    (by unfold PSize; omega) (by omega) (by unfold CleanSize; omega)
  have hc : calcChunkSize 1500000 = 1500016 := by rw [calc_eq (by omega)]; omega
  have hb : blocSize 1500000 = 2097152 := by unfold blocSize; omega
  have hz2 : z + 16 = 2097104 := by omega
  have hcz : calcChunkSize (z + 16) = 2097120 := by rw [hz2, calc_eq (by omega)]; omega
  obtain ⟨s', c, e1, e2, e3, _⟩ := C33_last_huge_partial (u := 1) (by decide) h
    (l := ⟨0, r, 1500000, true⟩) ⟨List.mem_singleton.2 rfl, rfl⟩ rfl
    (fun m hm => by rw [List.mem_singleton.1 hm.1]) (by omega) (by omega) hz (by omega)
  exact ⟨s, r, s', c, h, e1, e2, e3⟩

/-- C33 is false: a thread allocates 100 bytes and ends; the free of the block by another thread accesses the chain after the
handler has released it. -/
theorem C33_refuted : ∃ C s0 s r, PReach C CleanOp s0 ⟨[⟨0, r, 100, true⟩], []⟩ ∧ posixExit C s0 0 = .ok s ∧
    PValid s ⟨[⟨0, r, 100, true⟩], []⟩ (.free 1 r) ∧ pexec C s (.free 1 r) = .ub := by
  obtain ⟨s0, s, r, z, h0, e, h, hl, hz, hk⟩ := sample_ended (C := Config.default) (by decide) (n := 100) (by omega)
    (by unfold PSize; omega) (by omega) (by unfold CleanSize; omega)
  have hc : calcChunkSize 100 = 116 := by rw [calc_eq (by omega)]; omega
  have hz2 : z + 16 < 200 := by unfold cutSize at hk; omega
  have hcz : calcChunkSize (z + 16) ≤ 1048576 := by rw [calc_eq (by omega)]; omega
  exact ⟨_, s0, s, r, h0, e, ⟨by omega, Or.inr ⟨_, List.mem_singleton.2 rfl, rfl⟩⟩,
    C33_refuted_locked (u := 1) (by decide) h (l := ⟨0, r, 100, true⟩) ⟨List.mem_singleton.2 rfl, rfl⟩ rfl
      (fun m hm => by rw [List.mem_singleton.1 hm.1]) (by omega) (by omega) hz hcz⟩

/-- Hypotheses of `C33_refuted_empty`. -/
example : ∃ s, PReach Config.default CleanOp s ⟨[], []⟩ ∧ 0 < s.chs.length ∧
    ∀ l ∈ ([] : List PBlock) ++ [], l.owner ≠ 0 := by
  obtain ⟨s, h, hl, _⟩ := sample_threads (C := Config.default) (X := CleanOp) (by decide) (fun _ _ _ => trivial)
  exact ⟨s, h, by omega, fun l hl => by cases hl⟩

/-! ## Several threads in the huge path -/

theorem drun_append (s : DS) (l l' : List Nat) : drun s (l ++ l') = drun (drun s l) l' := by
  unfold drun; rw [List.foldl_append]

/-- A thread that runs alone. -/
theorem drun_four {s : DS} {t : Nat} (h : s.pc t = .load) : drun s [t, t, t, t] =
    ⟨s.cnt - 1, s.calls + (if s.cnt = 1 then 1 else 0), fun u => if u = t then .done else s.pc u⟩ := by
  have e1 : dstep s t = ⟨s.cnt, s.calls, fun u => if u = t then .store s.cnt else s.pc u⟩ := by
    unfold dstep; simp only [h]
  have e2 : dstep ⟨s.cnt, s.calls, fun u => if u = t then .store s.cnt else s.pc u⟩ t =
      ⟨s.cnt - 1, s.calls, fun u => if u = t then .test else s.pc u⟩ := by
    unfold dstep; simp only [if_pos]
    congr 1; funext u; by_cases hu : u = t <;> simp [hu]
  unfold drun
  simp only [List.foldl_cons, List.foldl_nil]
  rw [e1, e2]
  by_cases hc : s.cnt = 1
  · have e3 : dstep ⟨s.cnt - 1, s.calls, fun u => if u = t then .test else s.pc u⟩ t =
        ⟨s.cnt - 1, s.calls, fun u => if u = t then .call else s.pc u⟩ := by
      unfold dstep; simp only [if_pos]
      rw [if_pos (by omega)]
      congr 1; funext u; by_cases hu : u = t <;> simp [hu]
    rw [e3, if_pos hc]
    unfold dstep; simp only [if_pos]
    congr 1; funext u; by_cases hu : u = t <;> simp [hu]
  · have e3 : dstep ⟨s.cnt - 1, s.calls, fun u => if u = t then .test else s.pc u⟩ t =
        ⟨s.cnt - 1, s.calls, fun u => if u = t then .done else s.pc u⟩ := by
      unfold dstep; simp only [if_pos]
      rw [if_neg (by omega)]
      congr 1; funext u; by_cases hu : u = t <;> simp [hu]
    rw [e3, if_neg hc]
    unfold dstep; simp only [if_pos]; rfl

/-- C33: if the threads free the last huge blocks one after the other, in any order, the handler is called exactly once. -/
theorem C33_serial_partial {n : Nat} (hn : 0 < n) {p : List Nat} (hp : p.Perm (List.range n)) :
    (drun (dstart n) (p.flatMap (fun t => [t, t, t, t]))).Over ∧
      (drun (dstart n) (p.flatMap (fun t => [t, t, t, t]))).calls = 1 := by
  have key : ∀ (p : List Nat) (s : DS), p.Nodup → (∀ t ∈ p, s.pc t = .load) → s.cnt = p.length →
      drun s (p.flatMap (fun t => [t, t, t, t])) =
        ⟨0, s.calls + (if p = [] then 0 else 1), fun u => if u ∈ p then .done else s.pc u⟩ := by
    intro p
    induction p with
    | nil => intro s _ _ hc; simp only [List.length_nil] at hc; cases s; simp at hc; subst hc; rfl
    | cons t p ih =>
      intro s hd hl hc
      rw [List.nodup_cons] at hd
      rw [List.flatMap_cons, drun_append, drun_four (hl t List.mem_cons_self)]
      rw [ih _ hd.2 ?_ ?_]
      · simp only [List.length_cons] at hc
        congr 1
        · by_cases hp : p = []
          · subst hp; simp at hc; simp [hc]
          · have : 0 < p.length := List.length_pos_iff.2 hp
            rw [if_neg (by omega), if_neg hp, if_neg (by simp)]
            rfl
        · funext u
          by_cases hu : u = t <;> by_cases hm : u ∈ p <;> simp [hu, hm]
      · intro u hu
        have : u ≠ t := fun h => hd.1 (h ▸ hu)
        simp only [if_neg this]
        exact hl u (List.mem_cons_of_mem _ hu)
      · simp only [List.length_cons] at hc
        simp only; omega
  have hm : ∀ t, t ∈ p ↔ t < n := fun t => by rw [hp.mem_iff, List.mem_range]
  have hlen : p.length = n := by rw [hp.length_eq, List.length_range]
  rw [key p (dstart n) (hp.nodup_iff.2 List.nodup_range) (fun t ht => by
    show (if t < n then DPc.load else .done) = .load
    rw [if_pos ((hm t).1 ht)]) (by show (n : Int) = p.length; omega)]
  refine ⟨fun t => ?_, ?_⟩
  · show (if t ∈ p then DPc.done else if t < n then DPc.load else .done) = .done
    by_cases h : t < n
    · rw [if_pos ((hm t).2 h)]
    · rw [if_neg (fun h' => h ((hm t).1 h')), if_neg h]
  · show 0 + (if p = [] then 0 else 1) = 1
    rw [if_neg (fun h => by subst h; simp at hlen; omega)]

/-- C33 is false when two threads free the last two huge blocks at the same time: the handler, which releases the chain, is
called twice, or is not called though no bloc remains. -/
theorem C33_refuted_race :
    (∃ l, (drun (dstart 2) l).Over ∧ (drun (dstart 2) l).calls = 2) ∧
    (∃ l, (drun (dstart 2) l).Over ∧ (drun (dstart 2) l).calls = 0) := by
  refine ⟨⟨[0, 0, 1, 1, 0, 0, 1, 1], fun t => ?_, rfl⟩, ⟨[0, 1, 0, 1, 0, 1], fun t => ?_, rfl⟩⟩
  · match t with
    | 0 => rfl
    | 1 => rfl
    | t + 2 => rfl
  · match t with
    | 0 => rfl
    | 1 => rfl
    | t + 2 => rfl

end MpcAlloc
