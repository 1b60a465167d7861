import Verif.EndsLemmas
import Verif.ConcReach

/-
A chain whose thread has begun to end: thread safe, without destruction handler yet (sctk_allocator.c 1135). It behaves as
the ordinary chain, with the lock.
-/

namespace MpcAlloc

variable {σ : Type}

/-- The chain with the flag; `l` is the lock. -/
def Chain.flag (c : Chain) (l : Bool) : Chain := { c with threadSafe := true, lock := l }

/-- The same for the state of a call. -/
def CS.flag (s : CS σ) (l : Bool) : CS σ := { s with c := s.c.flag l }

namespace Ends

theorem CS.Plain.lockIf {s : CS σ} (q : s.Plain) : lockIf s = .ok s := by
  unfold MpcAlloc.lockIf
  rw [if_neg (by rw [q.dead]; simp), if_neg (by rw [q.safe]; simp)]

theorem CS.Plain.unlockIf {s : CS σ} (q : s.Plain) : unlockIf s = .ok s := by
  unfold MpcAlloc.unlockIf
  rw [if_neg (by rw [q.dead]; simp), if_neg (by rw [q.safe]; simp)]

theorem lockIf_flag {s : CS σ} (q : s.c.dead = false) : lockIf (s.flag false) = .ok (s.flag true) := by
  unfold lockIf
  have e : (s.flag false).c.dead = false := q
  rw [if_neg (by rw [e]; simp), if_pos (show (s.flag false).c.threadSafe = true from rfl), if_neg (by simp [CS.flag, Chain.flag])]
  rfl

theorem unlockIf_flag {s : CS σ} (q : s.c.dead = false) : unlockIf (s.flag true) = .ok (s.flag false) := by
  unfold unlockIf
  have e : (s.flag true).c.dead = false := q
  rw [if_neg (by rw [e]; simp), if_pos (show (s.flag true).c.threadSafe = true from rfl)]
  rfl

theorem prepRes_flag (s : CS σ) (b : Nat) (m : Mem) (z : Nat) (l : Bool) :
    OnNode.prepRes (s.flag l) b m z = (do
      let (s1, v) ← OnNode.prepRes s b m z
      return (s1.flag l, v)) := by
  unfold OnNode.prepRes
  have e2 : (s.flag l).c.noRegion = s.c.noRegion := rfl
  have e3 : (s.flag l).c.addr = s.c.addr := rfl
  have e1 : (s.flag l).w = s.w := rfl
  rw [e1, e2, e3]
  split
  · rfl
  · split
    · rfl
    · cases regionSetEntry m s.w.regs s.c.addr b <;> rfl

theorem prepareBloc_flag (s : CS σ) (b : Nat) (l : Bool) :
    prepareBloc (s.flag l) b = (do let (s1, v) ← prepareBloc s b; return (s1.flag l, v)) := by
  rw [OnNode.prepareBloc_res, OnNode.prepareBloc_res]
  have e1 : (s.flag l).w = s.w := rfl
  rw [e1]
  exact prepRes_flag s b _ _ l

theorem requestMem_flag (S : Source σ) (s : CS σ) (n : Nat) (l : Bool) :
    requestMem S (s.flag l) n = (do let (s1, v) ← requestMem S s n; return (s1.flag l, v)) := by
  unfold requestMem
  have e2 : (s.flag l).c.hasSrc = s.c.hasSrc := rfl
  have e1 : (s.flag l).w = s.w := rfl
  rw [e1, e2]
  split
  · rfl
  · cases S.request s.w.mem s.w.src (requestSize n) <;> try rfl
    rename_i q
    obtain ⟨m, src, bloc⟩ := q
    simp only [Outcome.ok_bind]
    have := prepareBloc_flag (CS.mk { s.w with mem := m, src := src } s.c) bloc l
    have e : ({ s.flag l with w := { s.w with mem := m, src := src } } : CS σ) =
        CS.flag (CS.mk { s.w with mem := m, src := src } s.c) l := rfl
    rw [e, this]
    cases prepareBloc (CS.mk { s.w with mem := m, src := src } s.c) bloc <;> try rfl
    rename_i q
    obtain ⟨s1, v⟩ := q
    simp only [Outcome.ok_bind, Outcome.pure_eq]
    split <;> rfl

theorem refillMem_flag (S : Source σ) (s : CS σ) (n : Nat) (l : Bool) :
    refillMem S (s.flag l) n = (do let (s1, b) ← refillMem S s n; return (s1.flag l, b)) := by
  unfold refillMem
  rw [requestMem_flag]
  cases requestMem S s n <;> try rfl
  rename_i q
  obtain ⟨s1, v⟩ := q
  simp only [Outcome.ok_bind, Outcome.pure_eq]
  split
  · rfl
  · have e : freeListInsert (s1.flag l).c.pool (s1.flag l).heap (vLarge v) true =
      freeListInsert s1.c.pool s1.heap (vLarge v) true := rfl
    rw [e]
    cases freeListInsert s1.c.pool s1.heap (vLarge v) true <;> rfl

theorem allocLocked_flag (S : Source σ) (s : CS σ) (n : Nat) (l : Bool) :
    allocLocked S (s.flag l) n = (do let (s1, v) ← allocLocked S s n; return (s1.flag l, v)) := by
  unfold allocLocked
  have e : findFreeChunk (s.flag l).c.pool (s.flag l).heap n = findFreeChunk s.c.pool s.heap n := rfl
  rw [e]
  cases findFreeChunk s.c.pool s.heap n <;> try rfl
  rename_i q
  obtain ⟨h, chunk⟩ := q
  simp only [Outcome.ok_bind]
  have e0 : (s.flag l).setHeap h = (s.setHeap h).flag l := rfl
  rw [e0]
  generalize s.setHeap h = s
  have key : ∀ (x : Outcome (CS σ × Nat)) (f : CS σ × Nat → Outcome (CS σ × Nat)),
      (∀ s1 v, f (s1.flag l, v) = (do let (s2, w) ← f (s1, v); return (s2.flag l, w))) →
      ((do let (s1, v) ← x; return (s1.flag l, v) : Outcome _) >>= f) =
        (do let (s2, w) ← (x >>= f); return (s2.flag l, w)) := by
    intro x f hf
    cases x with
    | ok q => obtain ⟨s1, v⟩ := q; exact hf s1 v
    | _ => rfl
  have e1 : (if chunk = 0 then do
        let (s, b) ← refillMem S (s.flag l) (calcChunkSize n)
        if b = true then do
            let (h, chunk) ← findFreeChunk s.c.pool s.heap n
            pure (s.setHeap h, chunk)
          else pure (s, 0)
      else pure (s.flag l, chunk) : Outcome (CS σ × Nat)) = (do
      let (s1, v) ← (if chunk = 0 then do
        let (s, b) ← refillMem S s (calcChunkSize n)
        if b = true then do
            let (h, chunk) ← findFreeChunk s.c.pool s.heap n
            pure (s.setHeap h, chunk)
          else pure (s, 0)
      else pure (s, chunk) : Outcome (CS σ × Nat))
      return (s1.flag l, v)) := by
    split
    · rw [refillMem_flag]
      cases refillMem S s (calcChunkSize n) <;> try rfl
      rename_i q
      obtain ⟨s1, b⟩ := q
      simp only [Outcome.ok_bind, Outcome.pure_eq]
      split
      · have e : findFreeChunk (s1.flag l).c.pool (s1.flag l).heap n = findFreeChunk s1.c.pool s1.heap n := rfl
        rw [e]
        cases findFreeChunk s1.c.pool s1.heap n <;> rfl
      · rfl
    · rfl
  rw [e1]
  refine key _ _ ?_
  intro s1 v
  simp only
  split
  · rfl
  · have e2 : (s1.flag l).w = s1.w := rfl
    rw [e2]
    split
    · rfl
    · cases splitFreeBloc s1.w.mem (largeToV v) n <;> try rfl
      rename_i q
      obtain ⟨m, v, res⟩ := q
      simp only [Outcome.ok_bind]
      have e3 : ((s1.flag l).setMem m) = (s1.setMem m).flag l := rfl
      rw [e3]
      generalize s1.setMem m = s2
      have e4 : (s2.flag l).w = s2.w := rfl
      rw [e4]
      split
      · rfl
      · split
        · have e5 : freeListInsert (s2.flag l).c.pool (s2.flag l).heap (vLarge res) false =
            freeListInsert s2.c.pool s2.heap (vLarge res) false := rfl
          rw [e5]
          cases freeListInsert s2.c.pool s2.heap (vLarge res) false <;> rfl
        · rfl

theorem padAndReturn_flag (s : CS σ) (v b : Nat) :
    padAndReturn (s.flag false) v b = ((padAndReturn s v b).1.flag false, (padAndReturn s v b).2) := rfl

/-- Allocation. -/
theorem allocAlign_flag (S : Source σ) {s : CS σ} (q : s.Plain) (b n : Nat) :
    allocAlign S (s.flag false) b n = (do
      let (s1, r) ← allocAlign S s b n
      return (s1.flag false, r)) := by
  rw [allocAlign_alive S (s := s.flag false) b n q.dead, allocAlign_alive S b n q.dead]
  split
  · rfl
  · have e1 : isHuge (s.flag false).c (if b > 1 then add64 n b else n) = isHuge s.c (if b > 1 then add64 n b else n) := rfl
    rw [e1]
    generalize (if b > 1 then add64 n b else n) = z
    split
    · rw [requestMem_flag]
      cases requestMem S s z <;> try rfl
    · rw [lockIf_flag q.dead, CS.Plain.lockIf q, Outcome.ok_bind, Outcome.ok_bind, allocLocked_flag]
      cases e : allocLocked S s z <;> try rfl
      rename_i w
      obtain ⟨s1, v⟩ := w
      have p := (allocLocked_flags e).plain q
      simp only [Outcome.ok_bind, Outcome.pure_eq]
      rw [unlockIf_flag p.dead, CS.Plain.unlockIf p, Outcome.ok_bind, Outcome.ok_bind]
      split <;> rfl

/-- Release of a bloc. -/
theorem freeMacroBloc_flag (S : Source σ) (s : CS σ) (v : Nat) (l : Bool) (h : s.c.handler = false) :
    freeMacroBloc S (s.flag l) v = (do let s1 ← freeMacroBloc S s v; return s1.flag l) := by
  unfold freeMacroBloc
  have e : (s.flag l).w = s.w := rfl
  rw [e]
  split
  · rfl
  · cases getPtr s.w.mem v <;> try rfl
    rename_i a
    simp only [Outcome.ok_bind]
    have e2 : (s.flag l).c.noRegion = s.c.noRegion := rfl
    rw [e2]
    cases (if s.c.noRegion = true then pure s.w.regs else regionUnsetEntry s.w.mem s.w.regs (sub64 a 32)) <;> try rfl
    rename_i R
    simp only [Outcome.ok_bind]
    cases S.free s.w.mem s.w.src (sub64 a 32) <;> try rfl
    rename_i x
    obtain ⟨m, src⟩ := x
    simp only [Outcome.ok_bind, h, CS.flag, Chain.flag, Bool.false_eq_true, false_and, and_false, if_false, Outcome.pure_eq]

theorem freeLocked_flag (S : Source σ) (s : CS σ) (v : Nat) (l : Bool) (h : s.c.handler = false) :
    freeLocked S (s.flag l) v = (do let s1 ← freeLocked S s v; return s1.flag l) := by
  unfold freeLocked
  have e1 : (s.flag l).c.base = s.c.base := rfl
  have e2 : (s.flag l).w = s.w := rfl
  have e3 : (s.flag l).c.noMerge = s.c.noMerge := rfl
  have e4 : (s.flag l).c.pool = s.c.pool := rfl
  have e5 : (s.flag l).heap = s.heap := rfl
  rw [e1, e2, e3, e4, e5]
  cases (if s.c.base ≠ 0 then getChunk s.w.mem (add64 s.c.base 16) else pure 0) <;> try rfl
  simp only [Outcome.ok_bind]
  cases (if s.c.noMerge = true then pure (s.heap, v) else mergeChunk s.c.pool s.heap v) <;> try rfl
  rename_i x
  obtain ⟨h1, v1⟩ := x
  simp only [Outcome.ok_bind]
  have e6 : (s.flag l).setHeap h1 = (s.setHeap h1).flag l := rfl
  rw [e6]
  have e7 : ((s.setHeap h1).flag l).c.hasSrc = (s.setHeap h1).c.hasSrc := rfl
  have e8 : ((s.setHeap h1).flag l).w = (s.setHeap h1).w := rfl
  rw [e7, e8]
  split
  · exact freeMacroBloc_flag S _ _ l h
  · have e9 : ((s.setHeap h1).flag l).c.pool = (s.setHeap h1).c.pool := rfl
    have e10 : ((s.setHeap h1).flag l).heap = (s.setHeap h1).heap := rfl
    rw [e9, e10]
    cases freeListInsert (s.setHeap h1).c.pool (s.setHeap h1).heap (vLarge v1) true <;> rfl

/-- Free. -/
theorem chainFree_flag {S : Source σ} {C : Config} {s : CS σ} {p : Nat} (q : s.Plain) :
    chainFree S C (s.flag false) p = (do let s1 ← chainFree S C s p; return s1.flag false) := by
  have e1 : (s.flag false).c.dead = false := q.dead
  have e2 : (s.flag false).w = s.w := rfl
  have e3 : ∀ z, isHuge (s.flag false).c z = isHuge s.c z := fun _ => rfl
  rw [chainFree_alive S C p e1, chainFree_alive S C p q.dead, e2]
  by_cases hp : p = 0
  · rw [if_pos hp, if_pos hp]; rfl
  rw [if_neg hp, if_neg hp]
  cases hv : getChunkUnpadded s.w.mem p with
  | abort => rfl
  | ub => rfl
  | diverge => rfl
  | ok v =>
    simp only [Outcome.ok_bind, e3]
    by_cases h0 : v = 0
    · rw [if_pos h0, if_pos h0]
      split <;> rfl
    rw [if_neg h0, if_neg h0]
    by_cases hs : infoState s.w.mem v ≠ SALLOC
    · rw [if_pos hs, if_pos hs]; rfl
    rw [if_neg hs, if_neg hs]
    by_cases hh : isHuge s.c (getSize s.w.mem v) = true
    · rw [if_pos hh, if_pos hh]
      exact freeMacroBloc_flag S s v false q.handler
    rw [if_neg hh, if_neg hh, lockIf_flag q.dead, CS.Plain.lockIf q, Outcome.ok_bind, Outcome.ok_bind,
      freeLocked_flag S s v true q.handler]
    cases e : freeLocked S s v with
    | abort => rfl
    | ub => rfl
    | diverge => rfl
    | ok s3 =>
      have q3 := (freeLocked_keep q.handler e).plain q
      simp only [Outcome.ok_bind, CS.Plain.unlockIf q3, Outcome.pure_eq]
      exact unlockIf_flag q3.dead

/-- Resize. -/
theorem chainRealloc_flag {S : Source σ} {C : Config} {s : CS σ} (q : s.Plain) {h p n : Nat} (hp : p ≠ 0) (hn : n ≠ 0) :
    chainRealloc S C h (s.flag false) p n = (do
      let (s1, r) ← chainRealloc S C h s p n
      return (s1.flag false, r)) := by
  rw [chainRealloc_eq S C s hp hn, chainRealloc_eq S C (s.flag false) hp hn]
  have e1 : (s.flag false).w = s.w := rfl
  rw [e1]
  cases getChunk s.w.mem p with
  | ok v =>
    simp only [Outcome.ok_bind]
    by_cases hv : v ≠ 0
    · rw [if_pos hv, if_pos hv]
      cases getUnpaddedSize s.w.mem v with
      | ok u =>
        simp only [Outcome.ok_bind]
        by_cases c1 : C.reallocFactor = 0 ∧ sub64 u 16 ≥ n ∧ sub64 (sub64 u 16) n ≤ C.reallocThreshold
        · rw [if_pos c1, if_pos c1]; rfl
        · rw [if_neg c1, if_neg c1]
          by_cases c2 : sub64 u 16 ≥ n ∧ sub64 (sub64 u 16) n ≤ C.reallocThreshold ∧
              sub64 (sub64 u 16) n ≤ sub64 u 16 / C.reallocFactor
          · rw [if_pos c2, if_pos c2]; rfl
          · rw [if_neg c2, if_neg c2]
            unfold chainAlloc
            rw [allocAlign_flag S q]
            cases e : allocAlign S s h n with
            | ok w =>
              obtain ⟨s1, res⟩ := w
              have p1 := (allocAlign_flags q e).plain q
              simp only [Outcome.ok_bind, Outcome.pure_eq]
              have e2 : (s1.flag false).w = s1.w := rfl
              rw [e2]
              by_cases hr : res ≠ 0
              · rw [if_pos hr, if_pos hr]
                cases memCopy s1.w.mem res p (if sub64 u 16 < n then sub64 u 16 else n) with
                | ok m =>
                  simp only [Outcome.ok_bind]
                  have p2 : (s1.setMem m).Plain := ⟨p1.dead, p1.lock, p1.handler, p1.safe⟩
                  have e3 : (s1.flag false).setMem m = (s1.setMem m).flag false := rfl
                  rw [e3, chainFree_flag p2]
                  cases chainFree S C (s1.setMem m) p <;> rfl
                | _ => rfl
              · rw [if_neg hr, if_neg hr]
                simp only [Outcome.ok_bind]
                rw [chainFree_flag p1]
                cases chainFree S C s1 p <;> rfl
            | _ => rfl
      | _ => rfl
    · rw [if_neg hv, if_neg hv]
      split <;> rfl
  | _ => rfl

end Ends

end MpcAlloc
