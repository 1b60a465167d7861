import Verif.Destroy
import Verif.PosixOps

/-
A chain marked for destruction behaves as the same chain without mark, until its last bloc goes.
-/

namespace MpcAlloc

variable {Ω : Env}
variable {σ : Type}

/-- The chain after `sctk_alloc_chain_mark_for_destroy`; `k` tells whether the handler was called, `l` is the lock. -/
def Chain.marked (c : Chain) (k l : Bool) : Chain :=
  { c with threadSafe := true, handler := true, lock := l, dead := k, calls := c.calls + (if k then 1 else 0) }

/-- The same for the state of a call. -/
def CS.marked (s : CS σ) (k l : Bool) : CS σ := { s with c := s.c.marked k l }

/-- The state of an ordinary chain between two calls. -/
structure CS.Plain (s : CS σ) : Prop where
  dead : s.c.dead = false
  lock : s.c.lock = false
  handler : s.c.handler = false
  safe : s.c.threadSafe = false

/-- Two states of which the chains differ only by the list status and the number of blocs. -/
def SameCh (s s' : CS σ) : Prop := s'.c = { s.c with status := s'.c.status, cnt := s'.c.cnt } ∧ s'.c.cnt ≤ s.c.cnt

theorem SameCh.refl (s : CS σ) : SameCh s s := ⟨rfl, Int.le_refl _⟩

theorem SameCh.trans {s s1 s2 : CS σ} (h1 : SameCh s s1) (h2 : SameCh s1 s2) : SameCh s s2 :=
  ⟨by rw [h2.1, h1.1], Int.le_trans h2.2 h1.2⟩

theorem SameCh.plain {s s' : CS σ} (h : SameCh s s') (p : s.Plain) : s'.Plain :=
  ⟨by rw [h.1]; exact p.dead, by rw [h.1]; exact p.lock, by rw [h.1]; exact p.handler, by rw [h.1]; exact p.safe⟩

/-- Release of a bloc by a marked chain. -/
theorem freeMacroBloc_marked (S : Source σ) (s : CS σ) (v : Nat) (l : Bool) (h : s.c.handler = false) :
    freeMacroBloc S (s.marked false l) v = (do
      let s1 ← freeMacroBloc S s v
      return s1.marked (decide (s1.c.cnt ≠ s.c.cnt ∧ s1.c.cnt = 0)) l) := by
  unfold freeMacroBloc
  have e : (s.marked false l).w = s.w := rfl
  rw [e]
  split
  · simp only [Outcome.pure_eq, Outcome.ok_bind, ne_eq, not_true_eq_false, false_and, decide_false]
  · cases getPtr s.w.mem v <;> try rfl
    rename_i a
    simp only [Outcome.ok_bind]
    have e2 : (s.marked false l).c.noRegion = s.c.noRegion := rfl
    rw [e2]
    cases (if s.c.noRegion = true then pure s.w.regs else regionUnsetEntry s.w.mem s.w.regs (sub64 a 32)) <;> try rfl
    rename_i R
    simp only [Outcome.ok_bind]
    cases S.free s.w.mem s.w.src (sub64 a 32) <;> try rfl
    rename_i x
    obtain ⟨m, src⟩ := x
    simp only [Outcome.ok_bind, h, CS.marked, Chain.marked, Bool.false_eq_true, false_and, and_false, if_false, and_true,
      Outcome.pure_eq]
    by_cases hz : s.c.cnt - 1 = 0
    · have h1 : s.c.cnt = 1 := by omega
      simp [h1]
    · simp [hz]

theorem freeMacroBloc_keep {S : Source σ} {s s1 : CS σ} {v : Nat} (h : s.c.handler = false)
    (e : freeMacroBloc S s v = .ok s1) : SameCh s s1 := by
  unfold freeMacroBloc at e
  split at e
  · cases e; exact SameCh.refl _
  · obtain ⟨a, _, e⟩ := Outcome.bind_eq_ok e
    obtain ⟨R, _, e⟩ := Outcome.bind_eq_ok e
    obtain ⟨x, _, e⟩ := Outcome.bind_eq_ok e
    simp only at e
    rw [if_neg (by rw [h]; simp)] at e
    cases e
    exact ⟨rfl, by simp only; omega⟩

theorem freeLocked_marked (S : Source σ) (s : CS σ) (v : Nat) (l : Bool) (h : s.c.handler = false) :
    freeLocked S (s.marked false l) v = (do
      let s1 ← freeLocked S s v
      return s1.marked (decide (s1.c.cnt ≠ s.c.cnt ∧ s1.c.cnt = 0)) l) := by
  unfold freeLocked
  have e1 : (s.marked false l).c.base = s.c.base := rfl
  have e2 : (s.marked false l).w = s.w := rfl
  have e3 : (s.marked false l).c.noMerge = s.c.noMerge := rfl
  have e4 : (s.marked false l).c.pool = s.c.pool := rfl
  have e5 : (s.marked false l).heap = s.heap := rfl
  rw [e1, e2, e3, e4, e5]
  cases (if s.c.base ≠ 0 then getChunk s.w.mem (add64 s.c.base 16) else pure 0) <;> try rfl
  simp only [Outcome.ok_bind]
  cases (if s.c.noMerge = true then pure (s.heap, v) else mergeChunk s.c.pool s.heap v) <;> try rfl
  rename_i x
  obtain ⟨h1, v1⟩ := x
  simp only [Outcome.ok_bind]
  have e6 : (s.marked false l).setHeap h1 = (s.setHeap h1).marked false l := rfl
  rw [e6]
  have e7 : ((s.setHeap h1).marked false l).c.hasSrc = (s.setHeap h1).c.hasSrc := rfl
  have e8 : ((s.setHeap h1).marked false l).w = (s.setHeap h1).w := rfl
  rw [e7, e8]
  split
  · exact freeMacroBloc_marked S _ _ l h
  · have e9 : ((s.setHeap h1).marked false l).c.pool = (s.setHeap h1).c.pool := rfl
    have e10 : ((s.setHeap h1).marked false l).heap = (s.setHeap h1).heap := rfl
    rw [e9, e10]
    cases freeListInsert (s.setHeap h1).c.pool (s.setHeap h1).heap (vLarge v1) true <;> try rfl
    simp only [Outcome.ok_bind, Outcome.pure_eq]
    congr 1
    simp [CS.setHeap, CS.marked, Chain.marked]

theorem freeLocked_keep {S : Source σ} {s s1 : CS σ} {v : Nat} (h : s.c.handler = false)
    (e : freeLocked S s v = .ok s1) : SameCh s s1 := by
  unfold freeLocked at e
  obtain ⟨_, _, e⟩ := Outcome.bind_eq_ok e
  obtain ⟨⟨h1, v1⟩, _, e⟩ := Outcome.bind_eq_ok e
  have k0 : SameCh s (s.setHeap h1) := ⟨rfl, Int.le_refl _⟩
  simp only at e
  split at e
  · exact k0.trans (freeMacroBloc_keep (s := s.setHeap h1) h e)
  · obtain ⟨h2, _, e⟩ := Outcome.bind_eq_ok e
    cases e
    exact ⟨rfl, Int.le_refl _⟩

/-- The block at `p` is freed through the path that does not take the lock. -/
def HugeAt (s : CS σ) (p : Nat) : Prop :=
  ∃ v, getChunkUnpadded s.w.mem p = .ok v ∧ isHuge s.c (getSize s.w.mem v) = true

theorem chainFree_keep {S : Source σ} {C : Config} {s s1 : CS σ} {p : Nat} (q : s.Plain)
    (e : chainFree S C s p = .ok s1) : SameCh s s1 := by
  unfold chainFree at e
  rw [if_neg (by rw [q.dead]; simp)] at e
  split at e
  · cases e; exact SameCh.refl _
  obtain ⟨v, _, e⟩ := Outcome.bind_eq_ok e
  split at e
  · split at e
    · cases e
    · cases e; exact SameCh.refl _
  split at e
  · cases e
  split at e
  · exact freeMacroBloc_keep q.handler e
  · obtain ⟨s2, e2, e⟩ := Outcome.bind_eq_ok e
    unfold lockIf at e2
    rw [if_neg (by rw [q.dead]; simp), if_neg (by rw [q.safe]; simp)] at e2
    cases e2
    obtain ⟨s3, e3, e⟩ := Outcome.bind_eq_ok e
    have k := freeLocked_keep q.handler e3
    have q3 := k.plain q
    unfold unlockIf at e
    rw [if_neg (by rw [q3.dead]; simp), if_neg (by rw [q3.safe]; simp)] at e
    cases e
    exact k

theorem chainFree_alive (S : Source σ) (C : Config) {s : CS σ} (p : Nat) (h : s.c.dead = false) :
    chainFree S C s p = (if p = 0 then .ok s else do
      let v ← getChunkUnpadded s.w.mem p
      if v = 0 then (if C.strict then .abort else return s)
      else if infoState s.w.mem v ≠ SALLOC then .abort
      else if isHuge s.c (getSize s.w.mem v) then freeMacroBloc S s v
      else do
        let s ← lockIf s
        let s ← freeLocked S s v
        unlockIf s) := by
  unfold chainFree
  rw [if_neg (by rw [h]; simp)]

/-- A free on a marked chain, from the same free on the ordinary chain. -/
theorem chainFree_marked {S : Source σ} {C : Config} {s : CS σ} {p : Nat} (q : s.Plain) :
    (¬ HugeAt s p → chainFree S C (s.marked false false) p = (do
      let s1 ← chainFree S C s p
      if s1.c.cnt ≠ s.c.cnt ∧ s1.c.cnt = 0 then .ub else return s1.marked false false)) ∧
    (HugeAt s p → chainFree S C (s.marked false false) p = (do
      let s1 ← chainFree S C s p
      return s1.marked (decide (s1.c.cnt ≠ s.c.cnt ∧ s1.c.cnt = 0)) false)) := by
  have e1 : (s.marked false false).c.dead = false := rfl
  have e2 : (s.marked false false).w = s.w := rfl
  have e3 : ∀ z, isHuge (s.marked false false).c z = isHuge s.c z := fun _ => rfl
  rw [chainFree_alive S C p e1, chainFree_alive S C p q.dead, e2]
  unfold HugeAt
  by_cases hp : p = 0
  · rw [if_pos hp, if_pos hp]
    simp
  rw [if_neg hp, if_neg hp]
  cases hv : getChunkUnpadded s.w.mem p with
  | abort => exact ⟨fun _ => rfl, fun _ => rfl⟩
  | ub => exact ⟨fun _ => rfl, fun _ => rfl⟩
  | diverge => exact ⟨fun _ => rfl, fun _ => rfl⟩
  | ok v =>
    simp only [Outcome.ok_bind, e3]
    by_cases h0 : v = 0
    · rw [if_pos h0, if_pos h0]
      split <;> simp
    rw [if_neg h0, if_neg h0]
    by_cases hs : infoState s.w.mem v ≠ SALLOC
    · rw [if_pos hs, if_pos hs]
      exact ⟨fun _ => rfl, fun _ => rfl⟩
    rw [if_neg hs, if_neg hs]
    by_cases hh : isHuge s.c (getSize s.w.mem v) = true
    · rw [if_pos hh, if_pos hh]
      refine ⟨fun h => absurd ⟨v, rfl, hh⟩ h, fun _ => freeMacroBloc_marked S s v false q.handler⟩
    rw [if_neg hh, if_neg hh]
    refine ⟨fun _ => ?_, fun ⟨v', h1, h2⟩ => absurd (Outcome.ok.inj h1 ▸ h2) hh⟩
    have l1 : lockIf (s.marked false false) = .ok (s.marked false true) := rfl
    have l2 : lockIf s = .ok s := by
      unfold lockIf
      rw [if_neg (by rw [q.dead]; simp), if_neg (by rw [q.safe]; simp)]
    rw [l1, l2, Outcome.ok_bind, Outcome.ok_bind, freeLocked_marked S s v true q.handler]
    cases e : freeLocked S s v with
    | abort => rfl
    | ub => rfl
    | diverge => rfl
    | ok s3 =>
      have q3 := (freeLocked_keep q.handler e).plain q
      have l3 : unlockIf s3 = .ok s3 := by
        unfold unlockIf
        rw [if_neg (by rw [q3.dead]; simp), if_neg (by rw [q3.safe]; simp)]
      simp only [Outcome.ok_bind, l3, Outcome.pure_eq]
      by_cases hz : s3.c.cnt ≠ s.c.cnt ∧ s3.c.cnt = 0
      · rw [if_pos hz, decide_eq_true hz]; rfl
      · rw [if_neg hz, decide_eq_false hz]; rfl

variable {σ : Type}

/-- Result of a call on a marked chain, from the state `s` before and `s1` after the same call on the ordinary chain. -/
structure MarkStep (s s1 sM : CS σ) (k' : Bool) : Prop where
  eq : sM = s1.marked k' false
  same : SameCh s s1
  gone : k' = true → s1.c.cnt = 0
  dest : s1.c.cnt = 0 → k' = true ∨ s1.c.cnt = s.c.cnt

theorem chainFree_marked_ok {S : Source σ} {C : Config} {s sM : CS σ} {p : Nat} (q : s.Plain)
    (e : chainFree S C (s.marked false false) p = .ok sM) :
    ∃ s1 k', chainFree S C s p = .ok s1 ∧ MarkStep s s1 sM k' := by
  by_cases h : HugeAt s p
  · rw [(chainFree_marked q).2 h] at e
    obtain ⟨s1, e1, e⟩ := Outcome.bind_eq_ok e
    cases e
    refine ⟨s1, _, e1, ⟨rfl, chainFree_keep q e1, fun h => (of_decide_eq_true h).2, fun h => ?_⟩⟩
    by_cases h2 : s1.c.cnt = s.c.cnt
    · exact Or.inr h2
    · exact Or.inl (decide_eq_true ⟨h2, h⟩)
  · rw [(chainFree_marked q).1 h] at e
    obtain ⟨s1, e1, e⟩ := Outcome.bind_eq_ok e
    split at e
    · cases e
    · rename_i hz
      cases e
      refine ⟨s1, false, e1, ⟨rfl, chainFree_keep q e1, fun h => (by cases h), fun h => ?_⟩⟩
      right
      by_contra h2
      exact hz ⟨h2, h⟩

theorem chainFree_marked_keep {S : Source σ} {C : Config} {s s1 : CS σ} {p : Nat} (q : s.Plain)
    (e : chainFree S C s p = .ok s1) (hz : s1.c.cnt ≠ 0) :
    chainFree S C (s.marked false false) p = .ok (s1.marked false false) := by
  by_cases h : HugeAt s p
  · rw [(chainFree_marked q).2 h, e, Outcome.ok_bind, decide_eq_false (by simp [hz])]; rfl
  · rw [(chainFree_marked q).1 h, e, Outcome.ok_bind, if_neg (by simp [hz])]; rfl

/-- The loop of the purge, as a finite number of frees. -/
inductive PLoop (S : Source σ) (C : Config) : CS σ → Nat → CS σ → Prop
  | nil {s : CS σ} : PLoop S C s 0 s
  | cons {s s1 s2 : CS σ} {p : Nat} : p ≠ 0 → chainFree S C s (readLE s.w.mem (p + 8) 8) = .ok s1 →
      PLoop S C s1 (readLE s.w.mem p 8) s2 → PLoop S C s p s2

theorem PLoop.run {S : Source σ} {C : Config} {s s' : CS σ} {p : Nat} (h : PLoop S C s p s') :
    purgeLoop S C s p = .ok s' := by
  induction h with
  | nil => rw [purgeLoop, if_pos rfl]
  | cons h1 h2 _ ih =>
    rw [purgeLoop, if_neg h1]
    simp only [h2, Outcome.ok_bind]
    exact ih

theorem PLoop.of {S : Source σ} {C : Config} {s s' : CS σ} {p : Nat} (h : purgeLoop S C s p = .ok s') :
    PLoop S C s p s' := by
  have := purgeLoop.fixpoint_induct S C (fun f => ∀ s p s', f s p = .ok s' → PLoop S C s p s') ?_ ?_
  · exact this s p s' h
  · apply Lean.Order.admissible_pi_apply (P := fun (s : CS σ) (f : Nat → Outcome (CS σ)) =>
      ∀ p s', f p = .ok s' → PLoop S C s p s')
    intro s
    apply Lean.Order.admissible_pi_apply (P := fun (p : Nat) (f : Outcome (CS σ)) => ∀ s', f = .ok s' → PLoop S C s p s')
    intro p
    exact Lean.Order.admissible_flatOrder (b := Outcome.diverge) (P := fun f => ∀ s', f = .ok s' → PLoop S C s p s')
      (by intro s' h; cases h)
  · intro f ih s p s' e
    simp only at e
    by_cases hp : p = 0
    · rw [if_pos hp] at e
      cases e
      rw [hp]; exact .nil
    · rw [if_neg hp] at e
      obtain ⟨s1, e1, e2⟩ := Outcome.bind_eq_ok e
      exact .cons hp e1 (ih _ _ _ e2)

theorem PLoop.dead {S : Source σ} {C : Config} {s s' : CS σ} {p : Nat} (h : PLoop S C s p s') (hd : s.c.dead = true) :
    p = 0 ∧ s' = s := by
  cases h with
  | nil => exact ⟨rfl, rfl⟩
  | cons h1 h2 _ =>
    unfold chainFree at h2
    rw [if_pos hd] at h2
    cases h2

theorem PLoop.unmark {S : Source σ} {C : Config} {s0 sM : CS σ} {p : Nat} (h : PLoop S C s0 p sM) :
    ∀ {s : CS σ}, s0 = s.marked false false → s.Plain → ∃ s1 k', PLoop S C s p s1 ∧ MarkStep s s1 sM k' := by
  induction h with
  | nil => exact fun h _ => ⟨_, false, .nil, ⟨h, SameCh.refl _, fun h => (by cases h), fun _ => Or.inr rfl⟩⟩
  | cons h1 h2 h3 ih =>
    intro s h q
    subst h
    obtain ⟨v, k, e, m⟩ := chainFree_marked_ok q h2
    cases k with
    | false =>
      obtain ⟨s1, k', l, m'⟩ := ih m.eq (m.same.plain q)
      refine ⟨s1, k', .cons h1 e l, ⟨m'.eq, m.same.trans m'.same, m'.gone, fun hz => ?_⟩⟩
      rcases m'.dest hz with h | h
      · exact Or.inl h
      · rcases m.dest (h ▸ hz) with h' | h'
        · cases h'
        · exact Or.inr (h.trans h')
    | true =>
      obtain ⟨hd, rfl⟩ := h3.dead (by rw [m.eq]; rfl)
      have hd' : readLE s.w.mem _ 8 = 0 := hd
      exact ⟨v, true, .cons h1 e (by rw [hd']; exact .nil), m⟩

theorem PLoop.same {S : Source σ} {C : Config} {s s' : CS σ} {p : Nat} (h : PLoop S C s p s') : s.Plain → SameCh s s' := by
  induction h with
  | nil => exact fun _ => SameCh.refl _
  | cons h1 h2 h3 ih =>
    intro q
    have k := chainFree_keep q h2
    exact k.trans (ih (k.plain q))

theorem PLoop.mark {S : Source σ} {C : Config} {s s' : CS σ} {p : Nat} (h : PLoop S C s p s') : s.Plain → 0 < s'.c.cnt →
    PLoop S C (s.marked false false) p (s'.marked false false) := by
  induction h with
  | nil => exact fun _ _ => .nil
  | cons h1 h2 h3 ih =>
    intro q hz
    have k := chainFree_keep q h2
    have := (h3.same (k.plain q)).2
    exact .cons h1 (chainFree_marked_keep q h2 (by omega)) (ih (k.plain q) hz)

theorem purgeRfq_unmark {S : Source σ} {C : Config} {s sM : CS σ} (q : s.Plain)
    (e : purgeRfq S C (s.marked false false) = .ok sM) :
    ∃ s1 k', purgeRfq S C s = .ok s1 ∧ sM = s1.marked k' false ∧ s1.c.rfqHead = 0 ∧ (k' = true → s1.c.cnt = 0) ∧
      (s1.c.cnt = 0 → k' = true ∨ s.c.cnt = 0) := by
  unfold purgeRfq at e ⊢
  rw [if_neg (by simp [CS.marked, Chain.marked])] at e
  rw [if_neg (by rw [q.dead]; simp)]
  have e1 : (s.marked false false).c.rfqHead = s.c.rfqHead := rfl
  have e2 : (s.marked false false).c.rfqTail = s.c.rfqTail := rfl
  rw [e1, e2] at e
  by_cases h : s.c.rfqHead = 0
  · rw [if_pos h] at e ⊢
    cases e
    exact ⟨s, false, rfl, rfl, h, fun h => (by cases h), fun h => Or.inr h⟩
  · rw [if_neg h] at e ⊢
    obtain ⟨u, e3, e4⟩ := Outcome.bind_eq_ok e
    have e3' : waitEnd s.w.mem s.c.rfqHead s.c.rfqTail = .ok u := e3
    obtain ⟨s1, k', l, m⟩ := (PLoop.of e4).unmark (s := { s with c := { s.c with rfqHead := 0, rfqTail := 0 } }) rfl
      ⟨q.dead, q.lock, q.handler, q.safe⟩
    refine ⟨s1, k', ?_, m.eq, by rw [m.same.1], m.gone, fun hz => ?_⟩
    · show (waitEnd s.w.mem s.c.rfqHead s.c.rfqTail >>= _) = _
      rw [e3', Outcome.ok_bind]
      exact l.run
    · rcases m.dest hz with h | h
      · exact Or.inl h
      · right; rw [hz] at h; exact h.symm

theorem purgeRfq_mark {S : Source σ} {C : Config} {s s1 : CS σ} (q : s.Plain) (e : purgeRfq S C s = .ok s1)
    (hz : 0 < s1.c.cnt) : purgeRfq S C (s.marked false false) = .ok (s1.marked false false) := by
  unfold purgeRfq at e ⊢
  rw [if_neg (by rw [q.dead]; simp)] at e
  rw [if_neg (by simp [CS.marked, Chain.marked])]
  have e1 : (s.marked false false).c.rfqHead = s.c.rfqHead := rfl
  have e2 : (s.marked false false).c.rfqTail = s.c.rfqTail := rfl
  rw [e1, e2]
  by_cases h : s.c.rfqHead = 0
  · rw [if_pos h] at e ⊢
    cases e; rfl
  · rw [if_neg h] at e ⊢
    obtain ⟨u, e3, e4⟩ := Outcome.bind_eq_ok e
    have e3' : waitEnd s.w.mem s.c.rfqHead s.c.rfqTail = .ok u := e3
    have := (PLoop.of e4).mark ⟨q.dead, q.lock, q.handler, q.safe⟩ hz
    show (waitEnd s.w.mem s.c.rfqHead s.c.rfqTail >>= _) = _
    rw [e3', Outcome.ok_bind]
    exact this.run

/-- The process with another chain for thread `t`. -/
def PS.over (s : PS) (t : Nat) (c : Chain) : PS := ⟨s.w, s.chs.set t c⟩

/-- The same for the result of a call. -/
def overR (t : Nat) (c : Chain) (x : Outcome (PS × Nat)) : Outcome (PS × Nat) := do
  let (s, r) ← x
  return (s.over t c, r)

theorem PS.over_loc {s : PS} {t u : Nat} (c : Chain) (h : u ≠ t) : (s.over t c).loc u = s.loc u := by
  unfold PS.loc PS.over
  simp only
  rw [List.getElem?_set_ne (Ne.symm h)]

theorem PS.over_put {s : PS} {t u : Nat} (c : Chain) (v : CS Light) (h : u ≠ t) :
    (s.over t c).put u v = (s.put u v).over t c := by
  unfold PS.put PS.over
  simp only
  rw [List.set_comm _ _ (Ne.symm h)]

theorem PS.over_setRegs (s : PS) (t : Nat) (c : Chain) (R : Regions) : (s.over t c).setRegs R = (s.setRegs R).over t c := rfl

theorem PS.over_len (s : PS) (t : Nat) (c : Chain) : (s.over t c).chs.length = s.chs.length := by
  unfold PS.over; simp

theorem PS.over_get {s : PS} {t : Nat} (c : Chain) (h : t < s.chs.length) : (s.over t c).chs[t]? = some c := by
  unfold PS.over; simp [h]

/-- Search of a chain by address: the mark does not change the address. -/
theorem PS.over_chainAt {s : PS} {t : Nat} {c c' : Chain} (hc : s.chs[t]? = some c) (ha : c'.addr = c.addr) (a : Nat) :
    (s.over t c').chainAt a = s.chainAt a := by
  have : (s.over t c').chs.findIdx? (fun c => decide (c.addr = a)) = s.chs.findIdx? (fun c => decide (c.addr = a)) := by
    unfold PS.over
    simp only
    have e : ∀ l : List Chain, l.findIdx? (fun c => decide (c.addr = a)) =
        (l.map Chain.addr).findIdx? (fun x => decide (x = a)) := by
      intro l; rw [List.findIdx?_map]; rfl
    rw [e, e, List.map_set, ha]
    congr 1
    refine List.ext_getElem? fun i => ?_
    by_cases hi : i = t
    · subst hi
      have := (List.getElem?_eq_some_iff.1 hc).1
      rw [List.getElem?_set_self (by simpa using this)]
      rw [List.getElem?_map, hc]; rfl
    · rw [List.getElem?_set_ne (Ne.symm hi)]
  unfold PS.chainAt
  rw [this]

theorem over_memalign (C : Config) (s : PS) {t u : Nat} (c : Chain) (b n : Nat) (h : u ≠ t) :
    posixMemalign C (s.over t c) u b n = overR t c (posixMemalign C s u b n) := by
  unfold posixMemalign overR
  rw [PS.over_loc c h]
  cases s.loc u <;> try rfl
  simp only [Outcome.ok_bind]
  rename_i x
  cases purgeRfq (lightSource C) C x <;> try rfl
  simp only [Outcome.ok_bind]
  rename_i y
  cases allocAlign (lightSource C) y b (if n = 0 then 1 else n) <;> try rfl
  rename_i z
  obtain ⟨z, r⟩ := z
  simp only [Outcome.ok_bind, Outcome.pure_eq, PS.over_put c z h]

theorem over_calloc (C : Config) (s : PS) {t u : Nat} (c : Chain) (b n k : Nat) (h : u ≠ t) :
    posixCalloc C b (s.over t c) u n k = overR t c (posixCalloc C b s u n k) := by
  unfold posixCalloc
  rw [posixMalloc_eq, posixMalloc_eq, over_memalign C s c _ _ h]
  unfold overR
  cases posixMemalign C s u b (n * k % W64) <;> try rfl
  rename_i z
  obtain ⟨z, r⟩ := z
  simp only [Outcome.ok_bind, Outcome.pure_eq]
  have : (z.over t c).w.mem = z.w.mem := rfl
  rw [this]
  cases memZero z.w.mem r (n * k % W64) <;> rfl

theorem over_spawn (s : PS) {t : Nat} (c : Chain) (a z pb : Nat) (ht : t < s.chs.length) :
    posixSpawn (s.over t c) a z pb = (do let s' ← posixSpawn s a z pb; return s'.over t c) := by
  unfold posixSpawn
  have : ((s.over t c).reserve a z).w = (s.reserve a z).w := rfl
  simp only
  rw [this]
  cases userInit (s.reserve a z).w a pb 0 0 false false false <;> try rfl
  simp only [Outcome.ok_bind, Outcome.pure_eq]
  unfold PS.over PS.reserve
  simp only
  rw [List.set_append_left _ _ ht]

/-- Thread `u` frees a block that is not of `t`. -/
theorem over_free {C : Config} {cl : Prop} {s : PS} {G : PSpec} {t u p : Nat} {c c' : Chain} (I : PInv Ω cl s G)
    (hc : s.chs[t]? = some c) (ha : c'.addr = c.addr) (hu : u < s.chs.length) (h : u ≠ t)
    (hp : p = 0 ∨ ∃ l ∈ G.live, l.ptr = p ∧ l.owner ≠ t) :
    posixFree C (s.over t c') u p = (do let s' ← posixFree C s u p; return s'.over t c') := by
  have hcu := List.getElem?_eq_getElem hu
  obtain ⟨v, e1, I1, _, ad, _⟩ := purge_eff (C := C) I hcu
  have ht1 : (s.put u v).chs[t]? = some c := by
    unfold PS.put; simp only; rw [List.getElem?_set_ne h]; exact hc
  unfold posixFree
  rw [PS.over_loc c' h, PS.loc_eq hcu, Outcome.ok_bind, Outcome.ok_bind, e1, Outcome.ok_bind, Outcome.ok_bind]
  simp only [PS.over_put c' v h]
  by_cases hz : p = 0
  · rw [if_pos hz, if_pos hz]; rfl
  rw [if_neg hz, if_neg hz]
  obtain ⟨l, hl, hlp, hlo⟩ := hp.resolve_left hz
  subst hlp
  obtain ⟨R, b, d, e2, hb, e3, hcz, hc2, e4, hts, I2, hpz⟩ := lookup_eff I1 (show l ∈ (G.drain u).live from hl)
  have e2' : regionGetMacroBloc ((s.put u v).over t c').w.mem ((s.put u v).over t c').w.regs l.ptr = .ok (R, b) := e2
  rw [e2', e2, Outcome.ok_bind, Outcome.ok_bind]
  simp only
  rw [if_neg hb, if_neg hb]
  have e3' : readLE ((s.put u v).over t c').w.mem (b + 16) 8 = d.addr := e3
  rw [e3', e3, if_neg hcz, if_neg hcz]
  have e4' : PS.chainAt { w := { (s.put u v).w with regs := R }, chs := (s.put u v).chs } d.addr = .ok l.owner := e4
  have e5 : PS.chainAt { w := { ((s.put u v).over t c').w with regs := R }, chs := ((s.put u v).over t c').chs } d.addr =
      .ok l.owner := by
    rw [← e4]
    exact PS.over_chainAt (s := (s.put u v).setRegs R) ht1 ha _
  rw [e4', e5, Outcome.ok_bind, Outcome.ok_bind]
  have e6 : PS.loc { w := { ((s.put u v).over t c').w with regs := R }, chs := ((s.put u v).over t c').chs } l.owner =
      PS.loc { w := { (s.put u v).w with regs := R }, chs := (s.put u v).chs } l.owner :=
    PS.over_loc (s := (s.put u v).setRegs R) c' hlo
  rw [e6]
  cases PS.loc { w := { (s.put u v).w with regs := R }, chs := (s.put u v).chs } l.owner <;> try rfl
  simp only [Outcome.ok_bind]
  rename_i x
  cases (if x.c.threadSafe = true ∨ d.addr = v.c.addr then chainFree (lightSource C) C x l.ptr else rfqRegister x l.ptr) <;>
    try rfl
  simp only [Outcome.ok_bind, Outcome.pure_eq]
  exact congrArg Outcome.ok (PS.over_put (s := (s.put u v).setRegs R) c' _ hlo)

/-- Copy to a new block. -/
theorem over_reallocInter {C : Config} {cl : Prop} {s : PS} {G : PSpec} {t u hook n : Nat} {l : PBlock} {c c' : Chain}
    (I : PInv Ω cl s G) (hc : s.chs[t]? = some c) (ha : c'.addr = c.addr) (hu : u < s.chs.length) (h : u ≠ t)
    (hl : l ∈ G.live) (hlo : l.owner ≠ t) (hn : n ≠ 0) (hb : GoodBound hook) (hsz : PSize (reqSize hook n))
    (hcl : cl → CleanSize (reqSize hook n)) :
    posixReallocInter C hook (s.over t c') u l.ptr n = overR t c' (posixReallocInter C hook s u l.ptr n) := by
  unfold posixReallocInter
  rw [if_pos hn, if_pos hn, posixMalloc_eq, posixMalloc_eq, over_memalign C s c' _ _ h]
  have hpz := I.ptr hl
  rcases memalign_op (C := C) I hu hb hsz hcl with ⟨_, e1⟩ | ⟨s1, r, e1, hr, a1, a2, I1, k1, len1⟩
  · rw [e1]; rfl
  have hc1 : s1.chs[t]? = some c := by
    have hcu := List.getElem?_eq_getElem hu
    unfold posixMemalign at e1
    rw [PS.loc_eq hcu, Outcome.ok_bind] at e1
    obtain ⟨x, _, e1⟩ := Outcome.bind_eq_ok e1
    obtain ⟨y, _, e1⟩ := Outcome.bind_eq_ok e1
    cases e1
    unfold PS.put; simp only; rw [List.getElem?_set_ne h]; exact hc
  have hl1 : l ∈ ((G.drain u).add u r n (decide (hook ≤ 1))).live := (add_live hr).2 (Or.inr hl)
  have hr1 : (⟨u, r, n, decide (hook ≤ 1)⟩ : PBlock) ∈ ((G.drain u).add u r n (decide (hook ≤ 1))).live :=
    (add_live hr).2 (Or.inl rfl)
  have hrp : r ≠ l.ptr := by
    intro h
    obtain ⟨_, _, _, _, K⟩ := I1
    have hnd := K.nodup
    unfold PSpec.add at hnd
    rw [if_neg hr] at hnd
    exact (List.pairwise_cons.1 hnd).1 l (List.mem_append_left _ hl) h
  obtain ⟨z, e2, hz1, hz2⟩ := getSize_op I1 hl1
  have hdj := hz2 _ hr1 hrp
  simp only at hdj
  have hcnt : (if n < z then n else z) = min n z := by split <;> omega
  obtain ⟨m2, e3, cp, f2⟩ := memCopy_ok (m := s1.w.mem) (dst := r) (src := l.ptr) (n := min n z) (by omega)
  obtain ⟨I2, k2⟩ := store_eff (m' := m2) I1 hr1 (fun x hx => f2 x (by unfold PBlock.Byte at hx; simp only at hx; omega))
  have e4 := over_free (C := C) (c := c) (t := t) (u := u) (p := l.ptr) I2 hc1 ha (by show u < s1.chs.length; omega) h
    (Or.inr ⟨l, hl1, rfl, hlo⟩)
  rw [e1]
  unfold overR
  rw [Outcome.ok_bind, Outcome.ok_bind]
  simp only [Outcome.pure_eq, Outcome.ok_bind]
  have e2' : posixGetSize (s1.over t c').w.mem l.ptr = .ok z := e2
  have e3' : memCopy (s1.over t c').w.mem r l.ptr (min n z) = .ok m2 := e3
  rw [if_pos ⟨hr, hpz⟩, if_pos ⟨hr, hpz⟩, e2', e2, Outcome.ok_bind, Outcome.ok_bind, hcnt, e3', e3, Outcome.ok_bind,
    Outcome.ok_bind, Outcome.ok_bind, Outcome.ok_bind, if_pos hpz, if_pos hpz]
  have e5 : (s1.over t c').setMem m2 = (s1.setMem m2).over t c' := rfl
  rw [e5, e4]
  cases posixFree C (s1.setMem m2) u l.ptr <;> rfl

theorem over_realloc {C : Config} {cl : Prop} {s : PS} {G : PSpec} {t u hook n : Nat} {l : PBlock} {c c' : Chain}
    (I : PInv Ω cl s G) (hc : s.chs[t]? = some c) (ha : c'.addr = c.addr) (hu : u < s.chs.length) (h : u ≠ t)
    (hl : l ∈ G.live) (hlo : l.owner ≠ t) (hn : n ≠ 0) (hb : GoodBound hook) (hsz : PSize (reqSize hook n))
    (hcl : cl → CleanSize (reqSize hook n)) :
    posixRealloc C hook (s.over t c') u l.ptr n = overR t c' (posixRealloc C hook s u l.ptr n) := by
  have hcu := List.getElem?_eq_getElem hu
  obtain ⟨R, b, d, e2, hb0, e3, hcz, hc2, e4, hts, I2, hpz⟩ := lookup_eff I hl
  unfold posixRealloc
  rw [if_neg hpz, if_neg hpz, if_neg hn, if_neg hn, PS.over_loc c' h, PS.loc_eq hcu, Outcome.ok_bind, Outcome.ok_bind]
  have e2' : regionGetMacroBloc (s.over t c').w.mem (s.over t c').w.regs l.ptr = .ok (R, b) := e2
  rw [e2', e2, Outcome.ok_bind, Outcome.ok_bind]
  simp only
  rw [if_neg hb0, if_neg hb0]
  have e3' : readLE (s.over t c').w.mem (b + 16) 8 = d.addr := e3
  rw [e3', e3, if_neg hcz, if_neg hcz]
  have e4' : PS.chainAt { w := { s.w with regs := R }, chs := s.chs } d.addr = .ok l.owner := e4
  have e5 : PS.chainAt { w := { (s.over t c').w with regs := R }, chs := (s.over t c').chs } d.addr = .ok l.owner := by
    rw [← e4]
    exact PS.over_chainAt (s := s.setRegs R) hc ha _
  rw [e4', e5, Outcome.ok_bind, Outcome.ok_bind]
  have e6 : PS.loc { w := { (s.over t c').w with regs := R }, chs := (s.over t c').chs } l.owner =
      PS.loc { w := { s.w with regs := R }, chs := s.chs } l.owner :=
    PS.over_loc (s := s.setRegs R) c' hlo
  rw [e6]
  cases PS.loc { w := { s.w with regs := R }, chs := s.chs } l.owner <;> try rfl
  rename_i x
  rw [Outcome.ok_bind, Outcome.ok_bind]
  by_cases hx : d.addr = s.chs[u].addr ∨ x.c.threadSafe = true
  · rw [if_pos hx, if_pos hx]
    cases chainRealloc (lightSource C) C hook x l.ptr n <;> try rfl
    rename_i y
    obtain ⟨y, r⟩ := y
    simp only [Outcome.ok_bind, Outcome.pure_eq, overR]
    exact congrArg (fun z => Outcome.ok (z, r)) (PS.over_put (s := s.setRegs R) c' _ hlo)
  · rw [if_neg hx, if_neg hx]
    exact over_reallocInter (s := s.setRegs R) I2 hc ha hu h hl hlo hn hb hsz hcl

/-- Usable size of a block with chunk `k`. -/
theorem PBase.usable {s : PS} {H : List Gh} {L : List (Nat × Nat)} {P : Res} (B : PBase s H L P) {t : Nat} {g : Gh} {k : Ck}
    (hg : H[t]? = some g) (hk : g.A.Used k) :
    posixGetSize s.w.mem k.uptr = .ok (k.addr + k.size - k.uptr) ∧
      ∀ c, s.chs[t]? = some c → (HugeAt ⟨s.w, c⟩ k.uptr ↔ calcChunkSize k.size > 1048576) := by
  obtain ⟨cc, hcc, T⟩ := B.getH hg
  have W := T.ch.wf
  have hge := W.uptr_ge k
  have hroom := T.ch.room k hk
  have hr := W.has_range hk.1
  obtain ⟨g1, g2, g3⟩ := getChunkUnpadded_used W T.ch.mem hk
  have g1' : getChunkUnpadded s.w.mem k.uptr = .ok (k.addr + 15) := g1
  have g3' : hSize s.w.mem (vLarge (k.addr + 15)) = k.size := g3
  constructor
  · unfold posixGetSize
    rw [if_neg (by omega), g1', Outcome.ok_bind, if_neg (by omega), Outcome.pure_eq]
    unfold getUsableSize
    rw [g3', sub64_eq (a := k.uptr) (by omega) (by omega), sub64_eq (a := k.size) (by omega) (by omega)]
    congr 1
    unfold sub64 add64
    omega
  · intro c hc
    obtain rfl : cc = c := Option.some.inj (hcc.symm.trans hc)
    have e : getSize s.w.mem (k.addr + 15) = k.size := g3
    unfold HugeAt isHuge
    constructor
    · rintro ⟨v, h1, h2⟩
      rw [g1'] at h1
      cases h1
      rw [Bool.and_eq_true, decide_eq_true_eq] at h2
      have h2 := h2.2
      have e' : getSize (CS.mk s.w cc).w.mem (k.addr + 15) = k.size := e
      rw [e'] at h2; exact h2
    · intro h
      refine ⟨k.addr + 15, g1', ?_⟩
      have e' : getSize (CS.mk s.w cc).w.mem (k.addr + 15) = k.size := e
      rw [e', Bool.and_eq_true]
      exact ⟨T.ch.src, decide_eq_true h⟩

/-- The purge of another chain does not change the usable size of a block. -/
theorem purge_usable {C : Config} {cl : Prop} {s : PS} {G : PSpec} (I : PInv Ω cl s G) {u : Nat} {c : Chain} {v : CS Light}
    (hc : s.chs[u]? = some c) (e : purgeRfq (lightSource C) C ⟨s.w, c⟩ = .ok v) {l : PBlock} (hl : l ∈ G.live)
    (ho : l.owner ≠ u) : posixGetSize (s.put u v).w.mem l.ptr = posixGetSize s.w.mem l.ptr := by
  obtain ⟨H, L, P, B, K⟩ := I
  obtain ⟨c', g, hc', hg, T⟩ := B.get (List.getElem?_eq_some_iff.1 hc).1
  obtain rfl : c' = c := Option.some.inj (hc'.symm.trans hc)
  obtain ⟨v', A', L', e', R, q'⟩ := purge_ok (C := C) (B.at hc hg) T.q
  obtain rfl : v' = v := Outcome.ok.inj (e'.symm.trans e)
  obtain ⟨gi, k, hi, hk, hq, hp, _⟩ := K.live l hl
  have B' := B.step hc hg R.step q'
  rw [← hp, (B.usable hi hk).1]
  exact (B'.usable (t := l.owner) (g := gi) (by rw [List.getElem?_set_ne (Ne.symm ho)]; exact hi) hk).1

/-- The process `sM` with the marked chain of thread `t`, and the same process `s` without mark. `k` tells whether the
handler was called. -/
structure Mk (cl : Prop) (t : Nat) (sM s : PS) (G : PSpec) (c : Chain) (k : Bool) : Prop where
  inv_ex : ∃ Ω, PInv Ω cl s G
  get : s.chs[t]? = some c
  eq : sM = s.over t (c.marked k false)
  head : c.rfqHead = 0
  pend : ∀ l ∈ G.pend, l.owner ≠ t
  gone : k = true → c.cnt = 0

theorem Mk.inv {cl : Prop} {t : Nat} {sM s : PS} {G : PSpec} {c : Chain} {k : Bool} (M : Mk cl t sM s G c k) :
    PInv M.inv_ex.choose cl s G := M.inv_ex.choose_spec

theorem PInv.chain {cl : Prop} {s : PS} {G : PSpec} (I : PInv Ω cl s G) {t : Nat} {c : Chain} (hc : s.chs[t]? = some c) :
    (CS.mk s.w c).Plain ∧ c.calls = 0 ∧ 0 ≤ c.cnt ∧ ∀ l ∈ G.live, l.owner = t → 0 < c.cnt := by
  obtain ⟨H, L, P, B, K⟩ := I
  obtain ⟨c', g, hc', hg, T⟩ := B.get (List.getElem?_eq_some_iff.1 hc).1
  obtain rfl : c' = c := Option.some.inj (hc'.symm.trans hc)
  refine ⟨⟨T.ch.dead, T.ch.lock, T.ch.handler.1, T.flag.1⟩, T.ch.handler.2, ?_, ?_⟩
  · rw [T.ch.cnt]; exact Int.natCast_nonneg _
  · intro l hl ho
    obtain ⟨gi, k, hi, hk, _⟩ := K.live l hl
    rw [ho] at hi
    obtain rfl : gi = g := Option.some.inj (hi.symm.trans hg)
    obtain ⟨x, hx, _⟩ := hk.1
    rw [T.ch.cnt]
    have := List.length_pos_of_mem hx
    omega

/-- With clean sizes, a chain without live or waiting block has no bloc. -/
theorem PInv.chain_empty {s : PS} {G : PSpec} (I : PInv Ω True s G) {t : Nat} {c : Chain} (hc : s.chs[t]? = some c)
    (h : ∀ l ∈ G.live ++ G.pend, l.owner ≠ t) : c.cnt = 0 := by
  obtain ⟨H, L, P, B, K⟩ := I
  obtain ⟨c', g, hc', hg, T⟩ := B.get (List.getElem?_eq_some_iff.1 hc).1
  obtain rfl : c' = c := Option.some.inj (hc'.symm.trans hc)
  obtain ⟨hb, hu⟩ := K.clean trivial t g hg
  rw [T.ch.cnt]
  have : g.A.segs = [] := by
    by_contra hne
    obtain ⟨x, hx⟩ := List.exists_mem_of_ne_nil _ hne
    obtain ⟨k, hk, _⟩ := hb (x.base, x.size) (mem_shape.2 ⟨x, hx, rfl⟩)
    obtain ⟨_, l, hl, ho, _⟩ := hu k hk
    exact h l hl ho
  rw [this]; rfl

theorem Mk.len {cl : Prop} {t : Nat} {sM s : PS} {G : PSpec} {c : Chain} {k : Bool} (M : Mk cl t sM s G c k) :
    sM.chs.length = s.chs.length := by rw [M.eq]; exact PS.over_len _ _ _

theorem Mk.world {cl : Prop} {t : Nat} {sM s : PS} {G : PSpec} {c : Chain} {k : Bool} (M : Mk cl t sM s G c k) :
    sM.w = s.w := by rw [M.eq]; rfl

theorem Mk.valid {cl : Prop} {t : Nat} {sM s : PS} {G : PSpec} {c : Chain} {k : Bool} (M : Mk cl t sM s G c k) {op : POp}
    (h : PValid sM G op) : PValid s G op := by
  have h1 := M.len
  have h2 := M.world
  cases op <;> unfold PValid at h ⊢ <;> simp only at h ⊢ <;> (try rw [h1] at h) <;> (try rw [h2] at h) <;> exact h

theorem Mk.mem {cl : Prop} {t : Nat} {sM s : PS} {G : PSpec} {c : Chain} {k : Bool} (M : Mk cl t sM s G c k) {op : POp} :
    OpMem sM op ↔ OpMem s op := by
  have h2 := M.world
  cases op <;> unfold OpMem <;> simp only <;> unfold HasMem <;> rw [h2]

/-- The chain of `t` seen from outside. -/
theorem Mk.chain {cl : Prop} {t : Nat} {sM s : PS} {G : PSpec} {c : Chain} {k : Bool} (M : Mk cl t sM s G c k) :
    sM.chs[t]? = some (c.marked k false) ∧ (c.marked k false).calls = (if k then 1 else 0) ∧
      (c.marked k false).dead = k ∧ (c.marked k false).cnt = c.cnt := by
  refine ⟨?_, ?_, rfl, rfl⟩
  · rw [M.eq]; exact PS.over_get _ (List.getElem?_eq_some_iff.1 M.get).1
  · have := (M.inv.chain M.get).2.1
    unfold Chain.marked; simp only; rw [this, Nat.zero_add]

/-- Is the call a free of a block of thread `t`? -/
def FreeOf (t : Nat) (G : PSpec) (op : POp) : Prop := ∃ u, ∃ l ∈ G.live, op = .free u l.ptr ∧ l.owner = t

/-- The other calls do not see the chain of `t`. -/
theorem over_pexec {C : Config} {cl : Prop} {s : PS} {G : PSpec} {t : Nat} {c c' : Chain} {op : POp} (I : PInv Ω cl s G)
    (hc : s.chs[t]? = some c) (ha : c'.addr = c.addr) (hv : PValid s G op) (hcl : cl → CleanOp op) (hx : AfterExit t G op)
    (hf : ¬ FreeOf t G op) : pexec C (s.over t c') op = overR t c' (pexec C s op) := by
  have ht := (List.getElem?_eq_some_iff.1 hc).1
  cases op with
  | spawn a z pb =>
    unfold pexec; simp only
    rw [over_spawn s c' a z pb ht]
    cases posixSpawn s a z pb <;> rfl
  | malloc u h n => exact over_memalign C s c' h n hx
  | memalign u b n => exact over_memalign C s c' b n hx
  | calloc u h n k => exact over_calloc C s c' h n k hx
  | free u p =>
    unfold pexec; simp only
    rw [over_free (c := c) I hc ha hv.1 hx]
    · cases posixFree C s u p <;> rfl
    · rcases hv.2 with h | ⟨l, hl, h⟩
      · exact Or.inl h
      · refine Or.inr ⟨l, hl, h, fun ho => hf ⟨u, l, hl, by rw [h], ho⟩⟩
  | realloc u p h n =>
    obtain ⟨h1, h2, h3, h4⟩ := hv
    unfold pexec; simp only
    by_cases hp : p = 0
    · unfold posixRealloc
      rw [if_pos hp, if_pos hp]
      exact over_memalign C s c' h n hx.1
    · obtain ⟨l, hl, hlp, hs⟩ := h4.resolve_left hp
      have hlo := hx.2 l hl hlp
      subst hlp
      by_cases hn : n = 0
      · unfold posixRealloc
        rw [if_neg hp, if_neg hp, if_pos hn, if_pos hn, over_free (c := c) I hc ha h1 hx.1 (Or.inr ⟨l, hl, rfl, hlo⟩)]
        cases posixFree C s u l.ptr <;> rfl
      · exact over_realloc (c := c) I hc ha h1 hx.1 hl hlo hn h2 h3 hcl
  | write a v => rfl

theorem filter_owner {M : List PBlock} {t : Nat} (h : ∀ l ∈ M, l.owner ≠ t) :
    M.filter (fun l => decide (l.owner ≠ t)) = M := by
  rw [List.filter_eq_self]; intro l hl; exact decide_eq_true (h l hl)

theorem drain_self {G : PSpec} {t : Nat} (h : ∀ l ∈ G.pend, l.owner ≠ t) : G.drain t = G := by
  unfold PSpec.drain; rw [filter_owner h]

/-- Another thread makes no block wait for `t`, unless it frees a block of `t`. -/
theorem after_pend {G : PSpec} {t r : Nat} {op : POp}
    (hp : ∀ l ∈ G.pend, l.owner ≠ t) (hx : AfterExit t G op) (hf : ¬ FreeOf t G op) :
    ∀ l ∈ (G.after op r).pend, l.owner ≠ t := by
  have hd : ∀ u, ∀ l ∈ (G.drain u).pend, l.owner ≠ t := fun u l hl => hp l (List.mem_of_mem_filter hl)
  have hdel : ∀ (G' : PSpec) (u p : Nat), (∀ l ∈ G'.pend, l.owner ≠ t) → (∀ l ∈ G'.live, l.ptr = p → l.owner ≠ t) →
      ∀ l ∈ (G'.del u p).pend, l.owner ≠ t := by
    intro G' u p h1 h2 l hl
    unfold PSpec.del at hl
    rcases List.mem_append.1 hl with h | h
    · rw [List.mem_filter, decide_eq_true_eq] at h
      exact h2 l h.1 h.2.1
    · exact h1 l h
  cases op with
  | spawn a z pb => exact hp
  | malloc u h n => unfold PSpec.after; simp only; rw [add_pend]; exact hd u
  | memalign u h n => unfold PSpec.after; simp only; rw [add_pend]; exact hd u
  | calloc u h n k => unfold PSpec.after; simp only; rw [add_pend]; exact hd u
  | free u p =>
    unfold PSpec.after; simp only
    exact hdel _ u p (hd u) (fun l hl hlp ho => hf ⟨u, l, hl, by rw [hlp], ho⟩)
  | realloc u p h n =>
    unfold PSpec.after; simp only
    split
    · rw [add_pend]; exact hd u
    split
    · exact hdel _ u p (hd u) hx.2
    split
    · split
      · exact hp
      · rw [add_pend]; exact hdel _ u p hp hx.2
    · rw [add_pend]; exact hdel _ u p (hd u) hx.2
  | write a v => exact hp

/-- A call of another thread that is not a free of a block of `t`. -/
theorem Mk.other {C : Config} {cl : Prop} {t : Nat} {sM s : PS} {G : PSpec} {c : Chain} {k : Bool} {op : POp}
    (hfac : C.reallocFactor ≠ 0) (M : Mk cl t sM s G c k) (hv : PValid sM G op) (hcl : cl → CleanOp op)
    (hx : AfterExit t G op) (hf : ¬ FreeOf t G op) :
    (¬ OpMem sM op ∧ pexec C sM op = .ub) ∨
    ∃ sM' s' r, pexec C sM op = .ok (sM', r) ∧ Mk cl t sM' s' ((G.after op r).drain t) c k := by
  have ht := (List.getElem?_eq_some_iff.1 M.get).1
  have hv' := M.valid hv
  have e := over_pexec (C := C) (c' := c.marked k false) M.inv M.get rfl hv' hcl hx hf
  have e0 := over_pexec (C := C) (c' := c) M.inv M.get rfl hv' hcl hx hf
  have hs : s.over t c = s := by unfold PS.over; rw [set_self M.get]
  rw [hs] at e0
  rw [← M.eq] at e
  rcases pstep (C := C) hfac M.inv hv' hcl with ⟨h1, h2⟩ | ⟨s', r, h1, I', _, hlen⟩
  · left
    refine ⟨fun h => h1 (M.mem.1 h), ?_⟩
    rw [e, h2]; rfl
  · right
    rw [h1] at e e0
    unfold overR at e e0
    rw [Outcome.ok_bind] at e e0
    have hc' : s'.chs[t]? = some c := by
      have h := congrArg Prod.fst (Outcome.ok.inj e0)
      have h : s' = s'.over t c := h
      rw [h]; exact PS.over_get _ (by omega)
    have hp := after_pend (r := r) M.pend hx hf
    refine ⟨_, s', r, e, ⟨?_, hc', rfl, M.head, ?_, M.gone⟩⟩
    · rw [drain_self hp]; exact ⟨_, I'⟩
    · intro l hl; rw [drain_self hp] at hl; exact hp l hl

/-- Number of blocs of the chain of `t` after the free of `p`, in the process without mark, and the outcome with mark. -/
theorem Mk.free {C : Config} {cl : Prop} {t u : Nat} {sM s : PS} {G : PSpec} {c : Chain} {k : Bool} {l : PBlock}
    (M : Mk cl t sM s G c k) (hu : u < sM.chs.length) (hne : u ≠ t) (hl : l ∈ G.live) (ho : l.owner = t) :
    ∃ s' c', (∃ Ω, PInv Ω cl s' ((G.after (.free u l.ptr) 0).drain t)) ∧ s'.chs[t]? = some c' ∧ c'.rfqHead = 0 ∧ c'.cnt ≤ c.cnt ∧
      k = false ∧ ∃ hg : Prop, (l.plain = true → ∀ z, posixGetSize s.w.mem l.ptr = .ok z →
        (hg ↔ calcChunkSize (z + 16) > 1048576)) ∧
      ((c'.cnt = 0 ∧ ¬ hg ∧ pexec C sM (.free u l.ptr) = .ub) ∨
      ((c'.cnt = 0 → hg) ∧ pexec C sM (.free u l.ptr) = .ok (s'.over t (c'.marked (decide (c'.cnt = 0)) false), 0))) := by
  rw [M.len] at hu
  have ht := (List.getElem?_eq_some_iff.1 M.get).1
  have hpos := (M.inv.chain M.get).2.2.2 l hl ho
  have hk : k = false := by
    cases k with
    | false => rfl
    | true => have := M.gone rfl; omega
  subst hk
  have hcu := List.getElem?_eq_getElem hu
  obtain ⟨v, e1, I1, _, ad, _⟩ := purge_eff (C := C) M.inv hcu
  have hz := purge_usable M.inv hcu e1 hl (by rw [ho]; exact Ne.symm hne)
  have ht1 : (s.put u v).chs[t]? = some c := by
    unfold PS.put; simp only; rw [List.getElem?_set_ne hne]; exact M.get
  obtain ⟨R, b, d, e2, hb, e3, hcz, hc2, e4, hts, I2, hpz⟩ := lookup_eff I1 (show l ∈ (G.drain u).live from hl)
  rw [ho] at hc2
  obtain rfl : d = c := Option.some.inj (hc2.symm.trans ht1)
  rw [ho] at e4
  have hc3 : ((s.put u v).setRegs R).chs[t]? = some d := ht1
  have hl2 : l ∈ (G.drain u).live := hl
  subst ho
  obtain ⟨x, e6, I3, _⟩ := free_eff (C := C) I2 hl2 hc3
  obtain ⟨q, hcalls, hcnt, hcl⟩ := I2.chain hc3
  have hcnt2 := hcl l hl2 rfl
  have hG : ((G.after (.free u l.ptr) 0).drain l.owner) = (G.drain u).del l.owner l.ptr := by
    show ((G.drain u).del u l.ptr).drain l.owner = _
    unfold PSpec.del PSpec.drain
    simp only
    congr 1
    rw [List.filter_append]
    have h1 : (G.live.filter (fun m => decide (m.ptr = l.ptr ∧ m.owner ≠ u))).filter
        (fun m => decide (m.owner ≠ l.owner)) = [] := by
      rw [List.filter_eq_nil_iff]
      intro m hm
      rw [List.mem_filter, decide_eq_true_eq] at hm
      have := M.inv.live_inj hm.1 hl hm.2.1
      rw [this]; simp
    have h2 : G.live.filter (fun m => decide (m.ptr = l.ptr ∧ m.owner ≠ l.owner)) = [] := by
      rw [List.filter_eq_nil_iff]
      intro m hm hh
      rw [decide_eq_true_eq] at hh
      have := M.inv.live_inj hm hl hh.1
      exact hh.2 (by rw [this])
    rw [h1, h2, List.nil_append, List.nil_append]
    refine filter_owner ?_
    intro m hm
    exact M.pend m (List.mem_of_mem_filter hm)
  have keep := chainFree_keep q e6
  have hex : pexec C sM (.free u l.ptr) = (do
      let y ← chainFree (lightSource C) C (CS.marked ⟨((s.put u v).setRegs R).w, d⟩ false false) l.ptr
      return (((s.put u v).setRegs R).put l.owner y, 0)) := by
    unfold pexec; simp only
    unfold posixFree
    rw [M.eq, PS.over_loc _ hne, PS.loc_eq hcu, Outcome.ok_bind, e1, Outcome.ok_bind]
    simp only [PS.over_put _ v hne]
    rw [if_neg hpz]
    have e2' : regionGetMacroBloc ((s.put u v).over l.owner (d.marked false false)).w.mem
      ((s.put u v).over l.owner (d.marked false false)).w.regs l.ptr = .ok (R, b) := e2
    rw [e2', Outcome.ok_bind]
    simp only
    rw [if_neg hb]
    have e3' : readLE ((s.put u v).over l.owner (d.marked false false)).w.mem (b + 16) 8 = d.addr := e3
    rw [e3', if_neg hcz]
    have e5 : PS.chainAt 
        ⟨⟨((s.put u v).over l.owner (d.marked false false)).w.mem, R, ((s.put u v).over l.owner (d.marked false false)).w.src⟩,
          ((s.put u v).over l.owner (d.marked false false)).chs⟩ d.addr = .ok l.owner := by
      rw [← e4]
      exact PS.over_chainAt (s := (s.put u v).setRegs R) (c' := d.marked false false) hc3 rfl _
    rw [e5, Outcome.ok_bind]
    have e7 : PS.loc 
        ⟨⟨((s.put u v).over l.owner (d.marked false false)).w.mem, R, ((s.put u v).over l.owner (d.marked false false)).w.src⟩,
          ((s.put u v).over l.owner (d.marked false false)).chs⟩ l.owner =
        .ok (CS.marked ⟨((s.put u v).setRegs R).w, d⟩ false false) := by
      have := PS.over_get (s := (s.put u v).setRegs R) (d.marked false false) (List.getElem?_eq_some_iff.1 hc3).1
      exact PS.loc_eq this
    rw [e7, Outcome.ok_bind]
    have hts' : (CS.marked ⟨((s.put u v).setRegs R).w, d⟩ false false).c.threadSafe = true := rfl
    rw [if_pos (Or.inl hts')]
    cases chainFree (lightSource C) C (CS.marked ⟨((s.put u v).setRegs R).w, d⟩ false false) l.ptr <;> try rfl
    rename_i y
    simp only [Outcome.ok_bind, Outcome.pure_eq]
    congr 2
    unfold PS.put PS.over PS.setRegs
    simp only
    rw [List.set_set]
  have hput : ∀ kk, ((s.put u v).setRegs R).put l.owner (x.marked kk false) =
      (((s.put u v).setRegs R).put l.owner x).over l.owner (x.c.marked kk false) := by
    intro kk
    unfold PS.put PS.over
    simp only
    rw [List.set_set]; rfl
  refine ⟨((s.put u v).setRegs R).put l.owner x, x.c, ?_, PS.put_get x (List.getElem?_eq_some_iff.1 hc3).1, ?_, keep.2, rfl,
    HugeAt ⟨((s.put u v).setRegs R).w, d⟩ l.ptr, ?_, ?_⟩
  · rw [hG]; exact ⟨_, I3⟩
  · rw [keep.1]; exact M.head
  · intro hpl z hsz
    obtain ⟨H, L, P, B, K⟩ := I2
    obtain ⟨g, kk, hg, hku, _, hp, _, hst⟩ := K.live l hl2
    obtain ⟨b1, b2⟩ := B.usable hg hku
    have b2 := b2 d hc3
    rw [hp] at b1 b2
    rw [b2]
    have b1' : posixGetSize (s.put u v).w.mem l.ptr = .ok (kk.addr + kk.size - l.ptr) := b1
    rw [hz, hsz] at b1'
    have hz' := Outcome.ok.inj b1'
    have hoff : kk.uptr = kk.addr + 16 := by unfold Ck.uptr Ck.off; rw [hst hpl]
    obtain ⟨cc, hcc, T⟩ := B.getH hg
    have hroom := T.ch.room kk hku
    have : z + 16 = kk.size := by omega
    rw [this]
  · have hcc : (CS.mk ((s.put u v).setRegs R).w d).c.cnt = d.cnt := rfl
    by_cases hH : HugeAt ⟨((s.put u v).setRegs R).w, d⟩ l.ptr
    · right
      refine ⟨fun _ => hH, ?_⟩
      rw [hex, (chainFree_marked q).2 hH, e6, Outcome.ok_bind, Outcome.pure_eq, Outcome.ok_bind, hput]
      have : decide (x.c.cnt ≠ (CS.mk ((s.put u v).setRegs R).w d).c.cnt ∧ x.c.cnt = 0) = decide (x.c.cnt = 0) := by
        rw [hcc]
        exact decide_eq_decide.2 ⟨fun h => h.2, fun h => ⟨by omega, h⟩⟩
      rw [this]; rfl
    · by_cases h0 : x.c.cnt = 0
      · left
        refine ⟨h0, hH, ?_⟩
        rw [hex, (chainFree_marked q).1 hH, e6, Outcome.ok_bind, if_pos ⟨by rw [hcc]; omega, h0⟩]; rfl
      · right
        refine ⟨fun h => absurd h h0, ?_⟩
        rw [hex, (chainFree_marked q).1 hH, e6, Outcome.ok_bind, if_neg (by simp [h0]), Outcome.pure_eq, Outcome.ok_bind, hput,
          decide_eq_false h0]; rfl

/-- End of a thread. -/
theorem exit_mk {C : Config} {cl : Prop} {s s1 : PS} {G : PSpec} {t : Nat} {c : Chain} (I : PInv Ω cl s G)
    (hc : s.chs[t]? = some c) (e : posixExit C s t = .ok s1) :
    ∃ s' c' k, Mk cl t s1 s' (G.drain t) c' k ∧ (c'.cnt = 0 → k = true ∨ c.cnt = 0) := by
  unfold posixExit at e
  rw [PS.loc_eq hc, Outcome.ok_bind] at e
  obtain ⟨uM, e1, e⟩ := Outcome.bind_eq_ok e
  obtain ⟨q, hcalls, hcnt, hcl⟩ := I.chain hc
  have hm : ({ (CS.mk s.w c) with c := { c with threadSafe := true, handler := true } } : CS Light) =
      CS.marked ⟨s.w, c⟩ false false := by
    have h1 := q.dead
    have h2 := q.lock
    simp only at h1 h2
    unfold CS.marked Chain.marked
    simp [h1, h2]
  unfold markForDestroy at e1
  rw [hm] at e1
  obtain ⟨v, k, e2, rfl, h1, h2, h3⟩ := purgeRfq_unmark q e1
  obtain ⟨v', e3, I', _⟩ := purge_eff (C := C) I hc
  obtain rfl : v' = v := Outcome.ok.inj (e3.symm.trans e2)
  cases e
  refine ⟨s.put t v', v'.c, k, ⟨⟨_, I'⟩, PS.put_get v' (List.getElem?_eq_some_iff.1 hc).1, ?_, h1, ?_, h2⟩, h3⟩
  · unfold PS.put PS.over
    simp only
    rw [List.set_set]; rfl
  · intro l hl
    unfold PSpec.drain at hl
    rw [List.mem_filter, decide_eq_true_eq] at hl
    exact hl.2

theorem exit_ok {C : Config} {cl : Prop} {s : PS} {G : PSpec} {t : Nat} {c : Chain} {v : CS Light} (I : PInv Ω cl s G)
    (hc : s.chs[t]? = some c) (e : purgeRfq (lightSource C) C ⟨s.w, c⟩ = .ok v) (h : 0 < v.c.cnt ∨ c.rfqHead = 0) :
    ∃ s1, posixExit C s t = .ok s1 := by
  obtain ⟨q, hcalls, hcnt, hcl⟩ := I.chain hc
  have hm : ({ (CS.mk s.w c) with c := { c with threadSafe := true, handler := true } } : CS Light) =
      CS.marked ⟨s.w, c⟩ false false := by
    have h1 := q.dead
    have h2 := q.lock
    simp only at h1 h2
    unfold CS.marked Chain.marked
    simp [h1, h2]
  unfold posixExit markForDestroy
  rw [PS.loc_eq hc, Outcome.ok_bind, hm]
  rcases h with h | h
  · rw [purgeRfq_mark q e h]; exact ⟨_, rfl⟩
  · have : purgeRfq (lightSource C) C (CS.marked ⟨s.w, c⟩ false false) = .ok (CS.marked ⟨s.w, c⟩ false false) := by
      unfold purgeRfq
      rw [if_neg (by simp [CS.marked, Chain.marked]), if_pos (by exact h)]
    rw [this]; exact ⟨_, rfl⟩

end MpcAlloc
