import Verif.Ends
import Verif.DestroyLemmas
import Verif.ConcSourceLemmas

/-
Proofs about processes in which threads end: the process behaves as one in which they have not ended, with marked chains.
-/

namespace MpcAlloc.Ends

variable {Ω : Env} {σ : Type}

/-! ## Allocation by a marked chain -/

theorem prepRes_marked (s : CS σ) (b : Nat) (m : Mem) (z : Nat) (l : Bool) :
    OnNode.prepRes (s.marked false l) b m z = (do
      let (s1, v) ← OnNode.prepRes s b m z
      return (s1.marked false l, v)) := by
  unfold OnNode.prepRes
  have e2 : (s.marked false l).c.noRegion = s.c.noRegion := rfl
  have e3 : (s.marked false l).c.addr = s.c.addr := rfl
  have e1 : (s.marked false l).w = s.w := rfl
  rw [e1, e2, e3]
  split
  · rfl
  · split
    · rfl
    · cases regionSetEntry m s.w.regs s.c.addr b <;> rfl

theorem prepareBloc_marked (s : CS σ) (b : Nat) (l : Bool) :
    prepareBloc (s.marked false l) b = (do let (s1, v) ← prepareBloc s b; return (s1.marked false l, v)) := by
  rw [OnNode.prepareBloc_res, OnNode.prepareBloc_res]
  have e1 : (s.marked false l).w = s.w := rfl
  rw [e1]
  exact prepRes_marked s b _ _ l

theorem requestMem_marked (S : Source σ) (s : CS σ) (n : Nat) (l : Bool) :
    requestMem S (s.marked false l) n = (do let (s1, v) ← requestMem S s n; return (s1.marked false l, v)) := by
  unfold requestMem
  have e2 : (s.marked false l).c.hasSrc = s.c.hasSrc := rfl
  have e1 : (s.marked false l).w = s.w := rfl
  rw [e1, e2]
  split
  · rfl
  · cases S.request s.w.mem s.w.src (requestSize n) <;> try rfl
    rename_i q
    obtain ⟨m, src, bloc⟩ := q
    simp only [Outcome.ok_bind]
    have := prepareBloc_marked (CS.mk { s.w with mem := m, src := src } s.c) bloc l
    have e : ({ s.marked false l with w := { s.w with mem := m, src := src } } : CS σ) =
        CS.marked (CS.mk { s.w with mem := m, src := src } s.c) false l := rfl
    rw [e, this]
    cases prepareBloc (CS.mk { s.w with mem := m, src := src } s.c) bloc <;> try rfl
    rename_i q
    obtain ⟨s1, v⟩ := q
    simp only [Outcome.ok_bind, Outcome.pure_eq]
    split <;> rfl

theorem refillMem_marked (S : Source σ) (s : CS σ) (n : Nat) (l : Bool) :
    refillMem S (s.marked false l) n = (do let (s1, b) ← refillMem S s n; return (s1.marked false l, b)) := by
  unfold refillMem
  rw [requestMem_marked]
  cases requestMem S s n <;> try rfl
  rename_i q
  obtain ⟨s1, v⟩ := q
  simp only [Outcome.ok_bind, Outcome.pure_eq]
  split
  · rfl
  · have e : freeListInsert (s1.marked false l).c.pool (s1.marked false l).heap (vLarge v) true =
      freeListInsert s1.c.pool s1.heap (vLarge v) true := rfl
    rw [e]
    cases freeListInsert s1.c.pool s1.heap (vLarge v) true <;> rfl

theorem allocLocked_marked (S : Source σ) (s : CS σ) (n : Nat) (l : Bool) :
    allocLocked S (s.marked false l) n = (do let (s1, v) ← allocLocked S s n; return (s1.marked false l, v)) := by
  unfold allocLocked
  have e : findFreeChunk (s.marked false l).c.pool (s.marked false l).heap n = findFreeChunk s.c.pool s.heap n := rfl
  rw [e]
  cases findFreeChunk s.c.pool s.heap n <;> try rfl
  rename_i q
  obtain ⟨h, chunk⟩ := q
  simp only [Outcome.ok_bind]
  have e0 : (s.marked false l).setHeap h = (s.setHeap h).marked false l := rfl
  rw [e0]
  generalize s.setHeap h = s
  have key : ∀ (x : Outcome (CS σ × Nat)) (f : CS σ × Nat → Outcome (CS σ × Nat)),
      (∀ s1 v, f (s1.marked false l, v) = (do let (s2, w) ← f (s1, v); return (s2.marked false l, w))) →
      ((do let (s1, v) ← x; return (s1.marked false l, v) : Outcome _) >>= f) =
        (do let (s2, w) ← (x >>= f); return (s2.marked false l, w)) := by
    intro x f hf
    cases x with
    | ok q => obtain ⟨s1, v⟩ := q; exact hf s1 v
    | _ => rfl
  have e1 : (if chunk = 0 then do
        let (s, b) ← refillMem S (s.marked false l) (calcChunkSize n)
        if b = true then do
            let (h, chunk) ← findFreeChunk s.c.pool s.heap n
            pure (s.setHeap h, chunk)
          else pure (s, 0)
      else pure (s.marked false l, chunk) : Outcome (CS σ × Nat)) = (do
      let (s1, v) ← (if chunk = 0 then do
        let (s, b) ← refillMem S s (calcChunkSize n)
        if b = true then do
            let (h, chunk) ← findFreeChunk s.c.pool s.heap n
            pure (s.setHeap h, chunk)
          else pure (s, 0)
      else pure (s, chunk) : Outcome (CS σ × Nat))
      return (s1.marked false l, v)) := by
    split
    · rw [refillMem_marked]
      cases refillMem S s (calcChunkSize n) <;> try rfl
      rename_i q
      obtain ⟨s1, b⟩ := q
      simp only [Outcome.ok_bind, Outcome.pure_eq]
      split
      · have e : findFreeChunk (s1.marked false l).c.pool (s1.marked false l).heap n = findFreeChunk s1.c.pool s1.heap n := rfl
        rw [e]
        cases findFreeChunk s1.c.pool s1.heap n <;> rfl
      · rfl
    · rfl
  rw [e1]
  refine key _ _ ?_
  intro s1 v
  simp only
  split
  · rfl
  · have e2 : (s1.marked false l).w = s1.w := rfl
    rw [e2]
    split
    · rfl
    · cases splitFreeBloc s1.w.mem (largeToV v) n <;> try rfl
      rename_i q
      obtain ⟨m, v, res⟩ := q
      simp only [Outcome.ok_bind]
      have e3 : ((s1.marked false l).setMem m) = (s1.setMem m).marked false l := rfl
      rw [e3]
      generalize s1.setMem m = s2
      have e4 : (s2.marked false l).w = s2.w := rfl
      rw [e4]
      split
      · rfl
      · split
        · have e5 : freeListInsert (s2.marked false l).c.pool (s2.marked false l).heap (vLarge res) false =
            freeListInsert s2.c.pool s2.heap (vLarge res) false := rfl
          rw [e5]
          cases freeListInsert s2.c.pool s2.heap (vLarge res) false <;> rfl
        · rfl

/-- Flags of a chain that no allocation changes. -/
def Flags (s s' : CS σ) : Prop := s'.c.dead = s.c.dead ∧ s'.c.lock = s.c.lock ∧ s'.c.handler = s.c.handler ∧
  s'.c.threadSafe = s.c.threadSafe ∧ s'.c.rfqHead = s.c.rfqHead

theorem Flags.rfl {s : CS σ} : Flags s s := ⟨Eq.refl _, Eq.refl _, Eq.refl _, Eq.refl _, Eq.refl _⟩

theorem Flags.trans {s s1 s2 : CS σ} (h1 : Flags s s1) (h2 : Flags s1 s2) : Flags s s2 :=
  ⟨h2.1.trans h1.1, h2.2.1.trans h1.2.1, h2.2.2.1.trans h1.2.2.1, h2.2.2.2.1.trans h1.2.2.2.1, h2.2.2.2.2.trans h1.2.2.2.2⟩

theorem Flags.plain {s s' : CS σ} (h : Flags s s') (q : s.Plain) : s'.Plain :=
  ⟨h.1.trans q.dead, h.2.1.trans q.lock, h.2.2.1.trans q.handler, h.2.2.2.1.trans q.safe⟩

theorem prepRes_flags {s s' : CS σ} {b v z : Nat} {m : Mem} (e : OnNode.prepRes s b m z = .ok (s', v)) : Flags s s' := by
  unfold OnNode.prepRes at e
  split at e
  · cases e; exact Flags.rfl
  · split at e
    · cases e; exact Flags.rfl
    · obtain ⟨⟨_, _⟩, _, e⟩ := Outcome.bind_eq_ok e
      cases e; exact Flags.rfl

theorem prepareBloc_flags {s s' : CS σ} {b v : Nat} (e : prepareBloc s b = .ok (s', v)) : Flags s s' :=
  prepRes_flags ((OnNode.prepareBloc_res s b).symm.trans e)

theorem requestMem_flags {S : Source σ} {s s' : CS σ} {n v : Nat} (e : requestMem S s n = .ok (s', v)) : Flags s s' := by
  unfold requestMem at e
  split at e
  · cases e; exact Flags.rfl
  · obtain ⟨⟨m, src, bloc⟩, _, e⟩ := Outcome.bind_eq_ok e
    obtain ⟨⟨s1, v1⟩, e1, e⟩ := Outcome.bind_eq_ok e
    have := prepareBloc_flags e1
    simp only at e
    split at e <;> cases e
    · exact this
    · exact this

theorem refillMem_flags {S : Source σ} {s s' : CS σ} {n : Nat} {b : Bool} (e : refillMem S s n = .ok (s', b)) : Flags s s' := by
  unfold refillMem at e
  obtain ⟨⟨s1, v1⟩, e1, e⟩ := Outcome.bind_eq_ok e
  have := requestMem_flags e1
  simp only at e
  split at e
  · cases e; exact this
  · obtain ⟨h, _, e⟩ := Outcome.bind_eq_ok e
    cases e; exact this

theorem allocLocked_flags {S : Source σ} {s s' : CS σ} {n v : Nat} (e : allocLocked S s n = .ok (s', v)) : Flags s s' := by
  unfold allocLocked at e
  obtain ⟨⟨h, chunk⟩, _, e⟩ := Outcome.bind_eq_ok e
  simp only at e
  obtain ⟨⟨s1, c1⟩, e1, e⟩ := Outcome.bind_eq_ok e
  have h1 : Flags s s1 := by
    split at e1
    · obtain ⟨⟨s2, b⟩, e2, e1⟩ := Outcome.bind_eq_ok e1
      have h2 : Flags s s2 := (show Flags s (s.setHeap h) from Flags.rfl).trans (refillMem_flags e2)
      simp only at e1
      split at e1
      · obtain ⟨⟨h, c⟩, _, e1⟩ := Outcome.bind_eq_ok e1
        cases e1; exact h2
      · cases e1; exact h2
    · cases e1; exact Flags.rfl
  refine h1.trans ?_
  simp only at e
  split at e
  · cases e; exact Flags.rfl
  · split at e
    · cases e
    · obtain ⟨⟨m, v, res⟩, _, e⟩ := Outcome.bind_eq_ok e
      simp only at e
      split at e
      · cases e
      · split at e
        · obtain ⟨h, _, e⟩ := Outcome.bind_eq_ok e
          cases e; exact Flags.rfl
        · cases e; exact Flags.rfl

theorem padAndReturn_marked (s : CS σ) (v b : Nat) :
    padAndReturn (s.marked false false) v b = ((padAndReturn s v b).1.marked false false, (padAndReturn s v b).2) := rfl

theorem padAndReturn_flags (s : CS σ) (v b : Nat) : Flags s (padAndReturn s v b).1 := Flags.rfl

theorem allocAlign_alive (S : Source σ) {s : CS σ} (b n : Nat) (h : s.c.dead = false) :
    allocAlign S s b n = (if n = 0 then .ok (s, 0) else
      if isHuge s.c (if b > 1 then add64 n b else n) then do
        let (s, v) ← requestMem S s (if b > 1 then add64 n b else n)
        return padAndReturn s v b
      else do
        let s ← lockIf s
        let (s, v) ← allocLocked S s (if b > 1 then add64 n b else n)
        let s ← unlockIf s
        if v = 0 then return (s, 0)
        else return padAndReturn s v b) := by
  unfold allocAlign
  rw [if_neg (by rw [h]; simp)]

/-- Allocation by a chain of a thread that has ended: only the lock is taken in addition. -/
theorem allocAlign_marked (S : Source σ) {s : CS σ} (q : s.Plain) (b n : Nat) :
    allocAlign S (s.marked false false) b n = (do
      let (s1, r) ← allocAlign S s b n
      return (s1.marked false false, r)) := by
  rw [allocAlign_alive S (s := s.marked false false) b n rfl, allocAlign_alive S b n q.dead]
  split
  · rfl
  · have e1 : isHuge (s.marked false false).c (if b > 1 then add64 n b else n) = isHuge s.c (if b > 1 then add64 n b else n) := rfl
    rw [e1]
    generalize (if b > 1 then add64 n b else n) = z
    split
    · rw [requestMem_marked]
      cases requestMem S s z <;> try rfl
    · have l1 : lockIf (s.marked false false) = .ok (s.marked false true) := rfl
      have l2 : lockIf s = .ok s := by unfold lockIf; rw [if_neg (by rw [q.dead]; simp), if_neg (by rw [q.safe]; simp)]
      rw [l1, l2, Outcome.ok_bind, Outcome.ok_bind, allocLocked_marked]
      cases e : allocLocked S s z <;> try rfl
      rename_i w
      obtain ⟨s1, v⟩ := w
      have p := (allocLocked_flags e).plain q
      simp only [Outcome.ok_bind, Outcome.pure_eq]
      have l3 : unlockIf (s1.marked false true) = .ok (s1.marked false false) := rfl
      have l4 : unlockIf s1 = .ok s1 := by
        unfold unlockIf; rw [if_neg (by rw [p.dead]; simp), if_neg (by rw [p.safe]; simp)]
      rw [l3, l4, Outcome.ok_bind, Outcome.ok_bind]
      split <;> rfl

theorem allocAlign_flags {S : Source σ} {s s' : CS σ} (q : s.Plain) {b n r : Nat} (e : allocAlign S s b n = .ok (s', r)) :
    Flags s s' := by
  rw [allocAlign_alive S b n q.dead] at e
  split at e
  · cases e; exact Flags.rfl
  · generalize (if b > 1 then add64 n b else n) = z at e
    split at e
    · obtain ⟨⟨s1, v⟩, e1, e⟩ := Outcome.bind_eq_ok e
      cases e
      exact (requestMem_flags e1).trans (padAndReturn_flags _ _ _)
    · have l2 : lockIf s = .ok s := by unfold lockIf; rw [if_neg (by rw [q.dead]; simp), if_neg (by rw [q.safe]; simp)]
      rw [l2, Outcome.ok_bind] at e
      obtain ⟨⟨s1, v⟩, e1, e⟩ := Outcome.bind_eq_ok e
      have p := (allocLocked_flags e1).plain q
      have l4 : unlockIf s1 = .ok s1 := by
        unfold unlockIf; rw [if_neg (by rw [p.dead]; simp), if_neg (by rw [p.safe]; simp)]
      simp only at e
      rw [l4, Outcome.ok_bind] at e
      split at e
      · cases e; exact allocLocked_flags e1
      · cases e; exact (allocLocked_flags e1).trans (padAndReturn_flags _ _ _)

/-- A free that is undefined without mark is undefined with mark. -/
theorem chainFree_marked_ub {S : Source σ} {C : Config} {s : CS σ} {p : Nat} (q : s.Plain)
    (e : chainFree S C s p = .ub) : chainFree S C (s.marked false false) p = .ub := by
  by_cases h : HugeAt s p
  · rw [(chainFree_marked q).2 h, e]; rfl
  · rw [(chainFree_marked q).1 h, e]; rfl

theorem chainRealloc_eq (S : Source σ) (C : Config) (s : CS σ) {h p n : Nat} (hp : p ≠ 0) (hn : n ≠ 0) :
    chainRealloc S C h s p n = (do
    let v ← getChunk s.w.mem p
    if v ≠ 0 then do
      let u ← getUnpaddedSize s.w.mem v
      let old := sub64 u 16
      let delta := sub64 old n
      if C.reallocFactor = 0 ∧ old ≥ n ∧ delta ≤ C.reallocThreshold then .ub
      else if old ≥ n ∧ delta ≤ C.reallocThreshold ∧ delta ≤ old / C.reallocFactor then return (s, p)
      else do
        let (s, res) ← chainAlloc S h s n
        let s ← (if res ≠ 0 then do
            let m ← memCopy s.w.mem res p (if old < n then old else n)
            pure (s.setMem m)
          else pure s)
        let s ← chainFree S C s p
        return (s, res)
    else if C.strict then .abort
    else return (s, 0)) := by
  unfold chainRealloc
  rw [if_neg (by omega), if_neg hp, if_neg hn]

/-- Resize of a block of a chain of a thread that has ended. -/
theorem chainRealloc_marked {S : Source σ} {C : Config} {s : CS σ} (q : s.Plain) {h p n : Nat} (hp : p ≠ 0) (hn : n ≠ 0) :
    (chainRealloc S C h s p n = .ub → chainRealloc S C h (s.marked false false) p n = .ub) ∧
    (∀ s1 r, chainRealloc S C h s p n = .ok (s1, r) → s1.c.cnt ≠ 0 →
      chainRealloc S C h (s.marked false false) p n = .ok (s1.marked false false, r)) := by
  rw [chainRealloc_eq S C s hp hn, chainRealloc_eq S C (s.marked false false) hp hn]
  have e1 : (s.marked false false).w = s.w := rfl
  rw [e1]
  cases getChunk s.w.mem p with
  | ok v =>
    simp only [Outcome.ok_bind]
    by_cases hv : v ≠ 0
    · rw [if_pos hv, if_pos hv]
      cases getUnpaddedSize s.w.mem v with
      | ok u =>
        simp only [Outcome.ok_bind]
        by_cases c1 : C.reallocFactor = 0 ∧ sub64 u 16 ≥ n ∧ sub64 (sub64 u 16) n ≤ C.reallocThreshold
        · rw [if_pos c1, if_pos c1]
          exact ⟨fun _ => rfl, fun _ _ h => by cases h⟩
        · rw [if_neg c1, if_neg c1]
          by_cases c2 : sub64 u 16 ≥ n ∧ sub64 (sub64 u 16) n ≤ C.reallocThreshold ∧
              sub64 (sub64 u 16) n ≤ sub64 u 16 / C.reallocFactor
          · rw [if_pos c2, if_pos c2]
            refine ⟨fun h => (by cases h), fun s1 r h _ => ?_⟩
            cases h; rfl
          · rw [if_neg c2, if_neg c2]
            unfold chainAlloc
            rw [allocAlign_marked S q]
            cases e : allocAlign S s h n with
            | ok w =>
              obtain ⟨s1, res⟩ := w
              have p1 := (allocAlign_flags q e).plain q
              simp only [Outcome.ok_bind, Outcome.pure_eq]
              have e2 : (s1.marked false false).w = s1.w := rfl
              rw [e2]
              by_cases hr : res ≠ 0
              · rw [if_pos hr, if_pos hr]
                cases memCopy s1.w.mem res p (if sub64 u 16 < n then sub64 u 16 else n) with
                | ok m =>
                  simp only [Outcome.ok_bind]
                  have p2 : (s1.setMem m).Plain := ⟨p1.dead, p1.lock, p1.handler, p1.safe⟩
                  have e3 : (s1.marked false false).setMem m = (s1.setMem m).marked false false := rfl
                  rw [e3]
                  refine ⟨fun h => ?_, fun s2 r h hz => ?_⟩
                  · cases e4 : chainFree S C (s1.setMem m) p <;> rw [e4] at h <;> try cases h
                    rw [chainFree_marked_ub p2 e4]; rfl
                  · obtain ⟨s3, e4, h⟩ := Outcome.bind_eq_ok h
                    cases h
                    rw [chainFree_marked_keep p2 e4 hz]; rfl
                | _ => exact ⟨fun h => h, fun _ _ h => by cases h⟩
              · rw [if_neg hr, if_neg hr]
                simp only [Outcome.ok_bind]
                refine ⟨fun h => ?_, fun s2 r h hz => ?_⟩
                · cases e4 : chainFree S C s1 p <;> rw [e4] at h <;> try cases h
                  rw [chainFree_marked_ub p1 e4]; rfl
                · obtain ⟨s3, e4, h⟩ := Outcome.bind_eq_ok h
                  cases h
                  rw [chainFree_marked_keep p1 e4 hz]; rfl
            | _ => exact ⟨fun h => h, fun _ _ h => by cases h⟩
      | _ => exact ⟨fun h => h, fun _ _ h => by cases h⟩
    · rw [if_neg hv, if_neg hv]
      split
      · exact ⟨fun h => h, fun _ _ h => by cases h⟩
      · refine ⟨fun h => (by cases h), fun s1 r h _ => ?_⟩
        cases h; rfl
  | _ => exact ⟨fun h => h, fun _ _ h => by cases h⟩

theorem chainRealloc_flags {S : Source σ} {C : Config} {s s1 : CS σ} (q : s.Plain) {h p n r : Nat} (hp : p ≠ 0) (hn : n ≠ 0)
    (e : chainRealloc S C h s p n = .ok (s1, r)) : Flags s s1 := by
  rw [chainRealloc_eq S C s hp hn] at e
  obtain ⟨v, _, e⟩ := Outcome.bind_eq_ok e
  split at e
  · obtain ⟨u, _, e⟩ := Outcome.bind_eq_ok e
    simp only at e
    split at e
    · cases e
    · split at e
      · cases e; exact Flags.rfl
      · obtain ⟨⟨s2, r2⟩, e2, e⟩ := Outcome.bind_eq_ok e
        have f2 := allocAlign_flags q e2
        have keep : ∀ {s2 s3 : CS σ}, s2.Plain → chainFree S C s2 p = .ok s3 → Flags s2 s3 := by
          intro s2 s3 q e
          have k := (chainFree_keep q e).1
          exact ⟨by rw [k], by rw [k], by rw [k], by rw [k], by rw [k]⟩
        simp only at e
        obtain ⟨s3, e3, e⟩ := Outcome.bind_eq_ok e
        obtain ⟨s4, e4, e⟩ := Outcome.bind_eq_ok e
        cases e
        have f3 : Flags s2 s3 := by
          split at e3
          · obtain ⟨m, _, e3⟩ := Outcome.bind_eq_ok e3
            cases e3; exact Flags.rfl
          · cases e3; exact Flags.rfl
        exact (f2.trans f3).trans (keep ((f2.trans f3).plain q) e4)
  · split at e
    · cases e
    · cases e; exact Flags.rfl

end MpcAlloc.Ends
