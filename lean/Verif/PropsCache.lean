import Verif.PropsFootprint
import Verif.PropsSource
import Verif.ConcReach
import Verif.PropsConcPosix
import Verif.DestroyLemmas

/-!
C81: what the process keeps from the kernel, for calls one at a time and for interleaved calls: the cache of the source has
at most `keep_mem + keep_max` bytes, and the blocs outside of the cache are at most as many as the blocks.
-/

namespace MpcAlloc

section frame
variable {σ : Type} {S : Source σ} {C : Config} {P Q : σ → Prop}

theorem regBloc_src {s s' : CS σ} {b v : Nat} (m : Mem) (v0 : Nat) (h : (if s.c.noRegion = true then Outcome.ok (s.setMem m, v0)
  else do
    let r ← regionSetEntry m s.w.regs s.c.addr b
    Outcome.ok ({ s with w := { s.w with mem := r.1, regs := r.2 } }, v0)) = .ok (s', v)) : s'.w.src = s.w.src := by
  split at h
  · cases h
    rfl
  · obtain ⟨⟨m, R⟩, h1, h2⟩ := Outcome.bind_eq_ok h
    cases h2
    rfl

theorem prepareBloc_src {s s' : CS σ} {b v : Nat} (h : prepareBloc s b = .ok (s', v)) : s'.w.src = s.w.src := by
  unfold prepareBloc at h
  split at h
  · cases h; rfl
  · simp only [setupChunk, Outcome.pure_eq] at h
    exact regBloc_src _ _ h

theorem requestMem_src (hPQ : ∀ x, P x → Q x)
    (hr : ∀ m x n m' x' b, S.request m x n = .ok (m', x', b) → P x → Q x') {s s' : CS σ} {n v : Nat}
    (e : requestMem S s n = .ok (s', v)) (h : P s.w.src) : Q s'.w.src := by
  unfold requestMem at e
  by_cases h1 : (!s.c.hasSrc) = true
  · rw [if_pos h1] at e; obtain ⟨rfl, _⟩ := Prod.mk.inj (Outcome.ok.inj e); exact hPQ _ h
  rw [if_neg h1] at e
  obtain ⟨⟨m, x, b⟩, e1, e⟩ := Outcome.bind_eq_ok e
  obtain ⟨⟨s1, v1⟩, e2, e⟩ := Outcome.bind_eq_ok e
  have hq : Q s1.w.src := by rw [prepareBloc_src e2]; exact hr _ _ _ _ _ _ e1 h
  simp only at e
  by_cases h2 : v1 = 0
  · rw [if_pos h2] at e; obtain ⟨rfl, _⟩ := Prod.mk.inj (Outcome.ok.inj e); exact hq
  · rw [if_neg h2] at e; obtain ⟨rfl, _⟩ := Prod.mk.inj (Outcome.ok.inj e); exact hq

theorem refillMem_src (hPQ : ∀ x, P x → Q x)
    (hr : ∀ m x n m' x' b, S.request m x n = .ok (m', x', b) → P x → Q x') {s s' : CS σ} {n : Nat} {b : Bool}
    (e : refillMem S s n = .ok (s', b)) (h : P s.w.src) : Q s'.w.src := by
  unfold refillMem at e
  obtain ⟨⟨s1, v1⟩, e1, e⟩ := Outcome.bind_eq_ok e
  have hq := requestMem_src hPQ hr e1 h
  simp only at e
  by_cases h2 : v1 = 0
  · rw [if_pos h2] at e; obtain ⟨rfl, _⟩ := Prod.mk.inj (Outcome.ok.inj e); exact hq
  · rw [if_neg h2] at e
    obtain ⟨hp, _, e⟩ := Outcome.bind_eq_ok e
    obtain ⟨rfl, _⟩ := Prod.mk.inj (Outcome.ok.inj e); exact hq

theorem lockIf_src {s s' : CS σ} (e : lockIf s = .ok s') : s'.w = s.w := by
  unfold lockIf at e
  split at e
  · cases e
  · split at e
    · split at e
      · cases e
      · obtain rfl := Outcome.ok.inj e; rfl
    · obtain rfl := Outcome.ok.inj e; rfl

theorem unlockIf_src {s s' : CS σ} (e : unlockIf s = .ok s') : s'.w = s.w := by
  unfold unlockIf at e
  split at e
  · cases e
  · split at e <;> obtain rfl := Outcome.ok.inj e <;> rfl

theorem allocLocked_src (hPQ : ∀ x, P x → Q x)
    (hr : ∀ m x n m' x' b, S.request m x n = .ok (m', x', b) → P x → Q x') {s s' : CS σ} {n v : Nat}
    (e : allocLocked S s n = .ok (s', v)) (h : P s.w.src) : Q s'.w.src := by
  unfold allocLocked at e
  obtain ⟨⟨h1, c1⟩, _, e⟩ := Outcome.bind_eq_ok e
  obtain ⟨⟨s2, c2⟩, e2, e⟩ := Outcome.bind_eq_ok e
  have hq : Q s2.w.src := by
    simp only at e2
    by_cases hc : c1 = 0
    · rw [if_pos hc] at e2
      obtain ⟨⟨s3, b⟩, e3, e2⟩ := Outcome.bind_eq_ok e2
      have hq := refillMem_src (s := s.setHeap h1) hPQ hr e3 h
      simp only at e2
      by_cases hb : b = true
      · rw [if_pos hb] at e2
        obtain ⟨⟨h4, c4⟩, _, e2⟩ := Outcome.bind_eq_ok e2
        obtain ⟨rfl, _⟩ := Prod.mk.inj (Outcome.ok.inj e2); exact hq
      · rw [if_neg hb] at e2
        obtain ⟨rfl, _⟩ := Prod.mk.inj (Outcome.ok.inj e2); exact hq
    · rw [if_neg hc] at e2
      obtain ⟨rfl, _⟩ := Prod.mk.inj (Outcome.ok.inj e2); exact hPQ _ h
  simp only at e
  by_cases hc : c2 = 0
  · rw [if_pos hc] at e; obtain ⟨rfl, _⟩ := Prod.mk.inj (Outcome.ok.inj e); exact hq
  rw [if_neg hc] at e
  by_cases hs : hSize s2.w.mem c2 < 32
  · rw [if_pos hs] at e; cases e
  rw [if_neg hs] at e
  obtain ⟨⟨m, v5, r5⟩, _, e⟩ := Outcome.bind_eq_ok e
  simp only at e
  by_cases h6 : getSize (s2.setMem m).w.mem v5 < calcChunkSize n
  · rw [if_pos h6] at e; cases e
  rw [if_neg h6] at e
  by_cases h7 : r5 ≠ 0
  · rw [if_pos h7] at e
    obtain ⟨h8, _, e⟩ := Outcome.bind_eq_ok e
    obtain ⟨rfl, _⟩ := Prod.mk.inj (Outcome.ok.inj e); exact hq
  · rw [if_neg h7] at e
    obtain ⟨rfl, _⟩ := Prod.mk.inj (Outcome.ok.inj e); exact hq

theorem allocAlign_src (hPQ : ∀ x, P x → Q x)
    (hr : ∀ m x n m' x' b, S.request m x n = .ok (m', x', b) → P x → Q x') {s s' : CS σ} {b n r : Nat}
    (e : allocAlign S s b n = .ok (s', r)) (h : P s.w.src) : Q s'.w.src := by
  unfold allocAlign at e
  by_cases hd : s.c.dead = true
  · rw [if_pos hd] at e; cases e
  rw [if_neg hd] at e
  by_cases hn : n = 0
  · rw [if_pos hn] at e; obtain ⟨rfl, _⟩ := Prod.mk.inj (Outcome.ok.inj e); exact hPQ _ h
  rw [if_neg hn] at e
  simp only at e
  by_cases hh : isHuge s.c (if b > 1 then add64 n b else n) = true
  · rw [if_pos hh] at e
    obtain ⟨⟨s1, v⟩, e1, e⟩ := Outcome.bind_eq_ok e
    have hq := requestMem_src hPQ hr e1 h
    obtain rfl := (Prod.mk.inj (Outcome.ok.inj e)).1; exact hq
  · rw [if_neg hh] at e
    obtain ⟨s1, e1, e⟩ := Outcome.bind_eq_ok e
    obtain ⟨⟨s2, v⟩, e2, e⟩ := Outcome.bind_eq_ok e
    obtain ⟨s3, e3, e⟩ := Outcome.bind_eq_ok e
    have hq := allocLocked_src hPQ hr e2 (by rw [lockIf_src e1]; exact h)
    rw [← unlockIf_src e3] at hq
    by_cases hv : v = 0
    · simp only at e
      rw [if_pos hv] at e
      obtain ⟨rfl, _⟩ := Prod.mk.inj (Outcome.ok.inj e); exact hq
    · simp only at e
      rw [if_neg hv] at e
      obtain rfl := (Prod.mk.inj (Outcome.ok.inj e)).1; exact hq

theorem freeMacroBloc_src (hr : ∀ m x b m' x', S.free m x b = .ok (m', x') → P x → P x') {s s' : CS σ} {v : Nat}
    (e : freeMacroBloc S s v = .ok s') (h : P s.w.src) : P s'.w.src := by
  unfold freeMacroBloc at e
  by_cases h1 : getSize s.w.mem v % MB2 ≠ MB2 - 48
  · rw [if_pos h1] at e; obtain rfl := Outcome.ok.inj e; exact h
  rw [if_neg h1] at e
  obtain ⟨a, _, e⟩ := Outcome.bind_eq_ok e
  obtain ⟨R, _, e⟩ := Outcome.bind_eq_ok e
  obtain ⟨⟨m, x⟩, e1, e⟩ := Outcome.bind_eq_ok e
  have hp := hr _ _ _ _ _ e1 h
  simp only at e
  split at e <;> obtain rfl := Outcome.ok.inj e <;> exact hp

theorem freeLocked_src (hr : ∀ m x b m' x', S.free m x b = .ok (m', x') → P x → P x') {s s' : CS σ} {v : Nat}
    (e : freeLocked S s v = .ok s') (h : P s.w.src) : P s'.w.src := by
  unfold freeLocked at e
  obtain ⟨_, _, e⟩ := Outcome.bind_eq_ok e
  obtain ⟨⟨h1, v1⟩, _, e⟩ := Outcome.bind_eq_ok e
  simp only at e
  split at e
  · exact freeMacroBloc_src hr e h
  · obtain ⟨h2, _, e⟩ := Outcome.bind_eq_ok e
    obtain rfl := Outcome.ok.inj e; exact h

theorem chainFree_src (hr : ∀ m x b m' x', S.free m x b = .ok (m', x') → P x → P x') {s s' : CS σ} {p : Nat}
    (e : chainFree S C s p = .ok s') (h : P s.w.src) : P s'.w.src := by
  unfold chainFree at e
  by_cases hd : s.c.dead = true
  · rw [if_pos hd] at e; cases e
  rw [if_neg hd] at e
  by_cases hp : p = 0
  · rw [if_pos hp] at e; obtain rfl := Outcome.ok.inj e; exact h
  rw [if_neg hp] at e
  obtain ⟨v, _, e⟩ := Outcome.bind_eq_ok e
  by_cases hv : v = 0
  · rw [if_pos hv] at e
    split at e
    · cases e
    · obtain rfl := Outcome.ok.inj e; exact h
  rw [if_neg hv] at e
  by_cases h1 : infoState s.w.mem v ≠ SALLOC
  · rw [if_pos h1] at e; cases e
  rw [if_neg h1] at e
  by_cases hh : isHuge s.c (getSize s.w.mem v) = true
  · rw [if_pos hh] at e; exact freeMacroBloc_src hr e h
  rw [if_neg hh] at e
  obtain ⟨s1, e1, e⟩ := Outcome.bind_eq_ok e
  obtain ⟨s2, e2, e⟩ := Outcome.bind_eq_ok e
  rw [unlockIf_src e]
  exact freeLocked_src hr e2 (by rw [lockIf_src e1]; exact h)

theorem purgeRfq_src (hr : ∀ m x b m' x', S.free m x b = .ok (m', x') → P x → P x') {s s' : CS σ}
    (e : purgeRfq S C s = .ok s') (h : P s.w.src) : P s'.w.src := by
  unfold purgeRfq at e
  by_cases hd : s.c.dead = true
  · rw [if_pos hd] at e; cases e
  rw [if_neg hd] at e
  by_cases h0 : s.c.rfqHead = 0
  · rw [if_pos h0] at e; obtain rfl := Outcome.ok.inj e; exact h
  rw [if_neg h0] at e
  obtain ⟨_, _, e⟩ := Outcome.bind_eq_ok e
  have key : ∀ {s0 s1 : CS σ} {p : Nat}, PLoop S C s0 p s1 → P s0.w.src → P s1.w.src := by
    intro s0 s1 p hl
    induction hl with
    | nil => exact id
    | cons _ h2 _ ih => exact fun h => ih (chainFree_src hr h2 h)
  exact key (PLoop.of e) h

theorem chainRealloc_src (hPQ : ∀ x, P x → Q x) (hr : ∀ m x n m' x' b, S.request m x n = .ok (m', x', b) → P x → Q x')
    (hf : ∀ m x b m' x', S.free m x b = .ok (m', x') → Q x → Q x') {s s' : CS σ} {hk p n r : Nat}
    (e : chainRealloc S C hk s p n = .ok (s', r)) (h : P s.w.src) : Q s'.w.src := by
  unfold chainRealloc at e
  by_cases h1 : p = 0 ∧ n = 0
  · rw [if_pos h1] at e; obtain ⟨rfl, _⟩ := Prod.mk.inj (Outcome.ok.inj e); exact hPQ _ h
  rw [if_neg h1] at e
  by_cases h2 : p = 0
  · rw [if_pos h2] at e; exact allocAlign_src hPQ hr e h
  rw [if_neg h2] at e
  by_cases h3 : n = 0
  · rw [if_pos h3] at e
    obtain ⟨s1, e1, e⟩ := Outcome.bind_eq_ok e
    obtain ⟨rfl, _⟩ := Prod.mk.inj (Outcome.ok.inj e); exact chainFree_src hf e1 (hPQ _ h)
  rw [if_neg h3] at e
  obtain ⟨v, _, e⟩ := Outcome.bind_eq_ok e
  by_cases h4 : v ≠ 0
  · rw [if_pos h4] at e
    obtain ⟨u, _, e⟩ := Outcome.bind_eq_ok e
    simp only at e
    by_cases h5 : C.reallocFactor = 0 ∧ sub64 u 16 ≥ n ∧ sub64 (sub64 u 16) n ≤ C.reallocThreshold
    · rw [if_pos h5] at e; cases e
    rw [if_neg h5] at e
    by_cases h6 : sub64 u 16 ≥ n ∧ sub64 (sub64 u 16) n ≤ C.reallocThreshold ∧ sub64 (sub64 u 16) n ≤ sub64 u 16 / C.reallocFactor
    · rw [if_pos h6] at e; obtain ⟨rfl, _⟩ := Prod.mk.inj (Outcome.ok.inj e); exact hPQ _ h
    rw [if_neg h6] at e
    obtain ⟨⟨s1, r1⟩, e1, e⟩ := Outcome.bind_eq_ok e
    obtain ⟨s2, e2, e⟩ := Outcome.bind_eq_ok e
    obtain ⟨s3, e3, e⟩ := Outcome.bind_eq_ok e
    have hq := allocAlign_src hPQ hr e1 h
    have hq2 : Q s2.w.src := by
      simp only at e2
      by_cases h7 : r1 ≠ 0
      · rw [if_pos h7] at e2
        obtain ⟨m, _, e2⟩ := Outcome.bind_eq_ok e2
        obtain rfl := Outcome.ok.inj e2; exact hq
      · rw [if_neg h7] at e2; obtain rfl := Outcome.ok.inj e2; exact hq
    obtain ⟨rfl, _⟩ := Prod.mk.inj (Outcome.ok.inj e); exact chainFree_src hf e3 hq2
  · rw [if_neg h4] at e
    split at e
    · cases e
    · obtain ⟨rfl, _⟩ := Prod.mk.inj (Outcome.ok.inj e); exact hPQ _ h

theorem rfqRegister_src {s s' : CS σ} {p : Nat} (e : rfqRegister s p = .ok s') : s'.w.src = s.w.src := by
  unfold rfqRegister at e
  by_cases h : p = 0
  · rw [if_pos h] at e; obtain rfl := Outcome.ok.inj e; rfl
  rw [if_neg h] at e
  obtain ⟨v, _, e⟩ := Outcome.bind_eq_ok e
  split at e
  · cases e
  · have e := Outcome.ok.inj e
    rw [← e]
    unfold queueInsert
    simp only
    split <;> rfl

end frame

/-! ## The source -/

/-- The cache is within its limits. -/
def Kept (C : Config) (x : Light) : Prop := x.size ≤ C.keepMem + C.keepMax
/-- The cache is within its limits, or its size has wrapped around. -/
def KeptW (C : Config) (x : Light) : Prop := x.size ≤ C.keepMem + C.keepMax ∨ W63 ≤ x.size

theorem lightFindLoop_size {m : Mem} {n q c q' b : Nat} (e : lightFindLoop m n q c = .ok (q', b)) :
    b = 0 ∨ readLE m (b + 8) 8 = n := by
  have := lightFindLoop.fixpoint_induct m n (fun f => ∀ q c r, f q c = .ok r → r.2 = 0 ∨ readLE m (r.2 + 8) 8 = n) ?_ ?_
  · exact this q c (q', b) e
  · apply Lean.Order.admissible_pi_apply (P := fun (q : Nat) (f : Nat → Outcome (Nat × Nat)) =>
      ∀ c r, f c = .ok r → r.2 = 0 ∨ readLE m (r.2 + 8) 8 = n)
    intro q
    apply Lean.Order.admissible_pi_apply (P := fun (c : Nat) (f : Outcome (Nat × Nat)) =>
      ∀ r, f = .ok r → r.2 = 0 ∨ readLE m (r.2 + 8) 8 = n)
    intro c
    exact Lean.Order.admissible_flatOrder (b := Outcome.diverge)
      (P := fun f => ∀ r : Nat × Nat, f = .ok r → r.2 = 0 ∨ readLE m (r.2 + 8) 8 = n) (by intro r h; cases h)
  · intro f ih q c r e
    simp only at e
    split at e
    · exact ih _ _ _ e
    · rename_i hc
      obtain rfl := Outcome.ok.inj e
      by_cases h0 : c = 0
      · exact Or.inl h0
      · right; by_contra hne; exact hc ⟨h0, hne⟩

theorem request_kept {C : Config} (h1 : C.keepMem < 4611686018427387904) (h2 : C.keepMax < 4611686018427387904)
    (m : Mem) (x : Light) (n : Nat) (m' : Mem) (x' : Light) (b : Nat)
    (e : (lightSource C).request m x n = .ok (m', x', b)) (h : Kept C x) : KeptW C x' := by
  have e : lightRequest C m x n = .ok (m', x', b) := e
  unfold Kept at h
  unfold lightRequest at e
  by_cases hn : n = 0
  · rw [if_pos hn] at e
    obtain ⟨_, e⟩ := Prod.mk.inj (Outcome.ok.inj e)
    obtain ⟨rfl, _⟩ := Prod.mk.inj e
    exact Or.inl h
  rw [if_neg hn] at e
  obtain ⟨⟨m1, x1, b1⟩, e1, e'⟩ := Outcome.bind_eq_ok e
  clear e
  have hx : (b1 = 0 ∧ x1 = x) ∨ (b1 ≠ 0 ∧ KeptW C x1) := by
    by_cases hk : lightKeep C x n false = true
    · rw [if_pos hk] at e1
      unfold lightKeep at hk
      simp only [Bool.not_false, Bool.true_or, Bool.and_true, decide_eq_true_eq] at hk
      unfold lightFind at e1
      by_cases hl : x.lock = true
      · rw [if_pos hl] at e1; cases e1
      rw [if_neg hl] at e1
      obtain ⟨⟨q, c⟩, e2, e1⟩ := Outcome.bind_eq_ok e1
      simp only at e1
      by_cases hc : c = 0
      · rw [if_pos hc] at e1
        obtain ⟨_, e1⟩ := Prod.mk.inj (Outcome.ok.inj e1)
        obtain ⟨rfl, rfl⟩ := Prod.mk.inj e1
        exact Or.inl ⟨rfl, rfl⟩
      rw [if_neg hc] at e1
      have hs := (lightFindLoop_size e2).resolve_left hc
      right
      have hz : b1 = c ∧ x1.size = sub64 x.size n := by
        by_cases hq : q = 0
        · rw [if_pos hq, hs] at e1
          obtain ⟨_, e1⟩ := Prod.mk.inj (Outcome.ok.inj e1)
          obtain ⟨rfl, rfl⟩ := Prod.mk.inj e1
          exact ⟨rfl, rfl⟩
        · rw [if_neg hq, hs] at e1
          obtain ⟨_, e1⟩ := Prod.mk.inj (Outcome.ok.inj e1)
          obtain ⟨rfl, rfl⟩ := Prod.mk.inj e1
          exact ⟨rfl, rfl⟩
      refine ⟨hz.1 ▸ hc, ?_⟩
      unfold KeptW
      rw [hz.2]
      unfold sub64
      omega
    · rw [if_neg hk] at e1
      obtain ⟨_, e1⟩ := Prod.mk.inj (Outcome.ok.inj e1)
      obtain ⟨rfl, rfl⟩ := Prod.mk.inj e1
      exact Or.inl ⟨rfl, rfl⟩
  simp only at e'
  rcases hx with ⟨hb, rfl⟩ | ⟨hb, hx⟩
  · rw [if_pos hb] at e'
    unfold lightMmap at e'
    simp only at e'
    split at e'
    · cases e'
    · split at e'
      · cases e'
      · obtain ⟨_, e⟩ := Prod.mk.inj (Outcome.ok.inj e')
        obtain ⟨e, _⟩ := Prod.mk.inj e
        rw [← e]; exact Or.inl h
  · rw [if_neg hb] at e'
    obtain ⟨_, e⟩ := Prod.mk.inj (Outcome.ok.inj e')
    obtain ⟨rfl, _⟩ := Prod.mk.inj e
    exact hx

theorem free_size {C : Config} {m : Mem} {x : Light} {b : Nat} {m' : Mem} {x' : Light}
    (e : (lightSource C).free m x b = .ok (m', x')) :
    x'.size = x.size ∨ (x.size ≤ C.keepMem ∧ x'.size ≤ C.keepMem + C.keepMax) := by
  have e : lightFree C m x b = .ok (m', x') := e
  unfold lightFree at e
  obtain ⟨⟨m1, x1⟩, e1, e⟩ := Outcome.bind_eq_ok e
  obtain ⟨_, e⟩ := Prod.mk.inj (Outcome.ok.inj e)
  rw [← e]
  show x1.size = _ ∨ _ ∧ x1.size ≤ _
  by_cases hk : lightKeep C x (readLE (lightSetupFree m b (hSize m b)) (b + 8) 8) true = true
  · rw [if_pos hk] at e1
    unfold lightKeep at hk
    simp only [Bool.not_true, Bool.false_or, Bool.and_eq_true, decide_eq_true_eq] at hk
    unfold lightReg at e1
    by_cases hl : x.lock = true
    · rw [if_pos hl] at e1; cases e1
    rw [if_neg hl] at e1
    obtain ⟨_, e1⟩ := Prod.mk.inj (Outcome.ok.inj e1)
    right
    refine ⟨hk.2, ?_⟩
    rw [← e1]
    show add64 _ _ ≤ _
    unfold add64
    have := Nat.mod_le (x.size + readLE (lightSetupFree m b (hSize m b)) (b + 8) 8) W64
    omega
  · rw [if_neg hk] at e1
    obtain ⟨_, e1⟩ := Prod.mk.inj (Outcome.ok.inj e1)
    rw [← e1]; exact Or.inl rfl

theorem free_kept {C : Config} (m : Mem) (x : Light) (b : Nat) (m' : Mem) (x' : Light)
    (e : (lightSource C).free m x b = .ok (m', x')) (h : Kept C x) : Kept C x' := by
  unfold Kept at h ⊢
  rcases free_size e with h' | h' <;> omega

theorem free_keptW {C : Config} (m : Mem) (x : Light) (b : Nat) (m' : Mem) (x' : Light)
    (e : (lightSource C).free m x b = .ok (m', x')) (h : KeptW C x) : KeptW C x' := by
  unfold KeptW at h ⊢
  rcases free_size e with h' | h' <;> omega

theorem Kept.w {C : Config} (x : Light) (h : Kept C x) : KeptW C x := Or.inl h

/-- The size of a cache is that of the blocs in it, and does not wrap around. -/
theorem LInv.kept {C : Config} {m : Mem} {x : Light} {O L : List (Nat × Nat)} (I : LInv m x O L)
    (h : C.keepMem < 4611686018427387904 → C.keepMax < 4611686018427387904 → KeptW C x) : Kept C x := by
  have h1 := I.sum_le
  rw [← I.size] at h1
  unfold Kept
  by_cases h2 : C.keepMem < 4611686018427387904 ∧ C.keepMax < 4611686018427387904
  · rcases h h2.1 h2.2 with h | h
    · exact h
    · omega
  · omega

/-! ## The calls -/

section calls
variable {C : Config} (h1 : C.keepMem < 4611686018427387904) (h2 : C.keepMax < 4611686018427387904)
include h1 h2

theorem loc_w {s : PS} {t : Nat} {u : CS Light} (e : s.loc t = .ok u) : u.w = s.w := by
  unfold PS.loc at e
  split at e
  · obtain rfl := Outcome.ok.inj e; rfl
  · cases e

theorem posixMemalign_kept {s s' : PS} {t b n r : Nat} (e : posixMemalign C s t b n = .ok (s', r)) (h : Kept C s.w.src) :
    KeptW C s'.w.src := by
  unfold posixMemalign at e
  obtain ⟨u, e1, e⟩ := Outcome.bind_eq_ok e
  obtain ⟨u2, e2, e⟩ := Outcome.bind_eq_ok e
  obtain ⟨⟨u3, r3⟩, e3, e⟩ := Outcome.bind_eq_ok e
  obtain ⟨rfl, _⟩ := Prod.mk.inj (Outcome.ok.inj e)
  have hu : Kept C u2.w.src := purgeRfq_src free_kept e2 (by rw [loc_w h1 h2 e1]; exact h)
  exact allocAlign_src Kept.w (request_kept h1 h2) e3 hu

theorem posixMalloc_kept {s s' : PS} {hk t n r : Nat} (e : posixMalloc C hk s t n = .ok (s', r)) (h : Kept C s.w.src) :
    KeptW C s'.w.src := posixMemalign_kept h1 h2 (b := hk) e h

theorem posixFree_kept {s s' : PS} {t p : Nat} {P : Light → Prop}
    (hP : ∀ m x b m' x', (lightSource C).free m x b = .ok (m', x') → P x → P x')
    (e : posixFree C s t p = .ok s') (h : P s.w.src) : P s'.w.src := by
  unfold posixFree at e
  obtain ⟨u, e1, e⟩ := Outcome.bind_eq_ok e
  obtain ⟨u2, e2, e⟩ := Outcome.bind_eq_ok e
  have hu : P u2.w.src := purgeRfq_src hP e2 (by rw [loc_w h1 h2 e1]; exact h)
  simp only at e
  by_cases hp : p = 0
  · rw [if_pos hp] at e; obtain rfl := Outcome.ok.inj e; exact hu
  rw [if_neg hp] at e
  obtain ⟨⟨R, b⟩, _, e⟩ := Outcome.bind_eq_ok e
  simp only at e
  by_cases hb : b = 0
  · rw [if_pos hb] at e
    split at e
    · cases e
    · obtain rfl := Outcome.ok.inj e; exact hu
  rw [if_neg hb] at e
  split at e
  · cases e
  · obtain ⟨i, _, e⟩ := Outcome.bind_eq_ok e
    obtain ⟨v, e3, e⟩ := Outcome.bind_eq_ok e
    obtain ⟨v2, e4, e⟩ := Outcome.bind_eq_ok e
    obtain rfl := Outcome.ok.inj e
    have hv : P v.w.src := by rw [loc_w h1 h2 e3]; exact hu
    show P v2.w.src
    split at e4
    · exact chainFree_src hP e4 hv
    · rw [rfqRegister_src e4]; exact hv

theorem posixRealloc_kept {s s' : PS} {hk t p n r : Nat} (e : posixRealloc C hk s t p n = .ok (s', r)) (h : Kept C s.w.src) :
    KeptW C s'.w.src := by
  unfold posixRealloc at e
  by_cases hp : p = 0
  · rw [if_pos hp] at e; exact posixMalloc_kept h1 h2 e h
  rw [if_neg hp] at e
  by_cases hn : n = 0
  · rw [if_pos hn] at e
    obtain ⟨s1, e1, e⟩ := Outcome.bind_eq_ok e
    obtain ⟨rfl, _⟩ := Prod.mk.inj (Outcome.ok.inj e)
    exact Kept.w _ (posixFree_kept h1 h2 free_kept e1 h)
  rw [if_neg hn] at e
  obtain ⟨u, _, e⟩ := Outcome.bind_eq_ok e
  obtain ⟨⟨R, b⟩, _, e⟩ := Outcome.bind_eq_ok e
  simp only at e
  split at e
  · cases e
  split at e
  · cases e
  obtain ⟨i, _, e⟩ := Outcome.bind_eq_ok e
  obtain ⟨v, e3, e⟩ := Outcome.bind_eq_ok e
  have hv : Kept C v.w.src := by rw [loc_w h1 h2 e3]; exact h
  split at e
  · obtain ⟨⟨v2, r2⟩, e4, e⟩ := Outcome.bind_eq_ok e
    obtain ⟨rfl, _⟩ := Prod.mk.inj (Outcome.ok.inj e)
    exact chainRealloc_src Kept.w (request_kept h1 h2) free_keptW e4 hv
  · unfold posixReallocInter at e
    obtain ⟨⟨s1, r1⟩, e5, e⟩ := Outcome.bind_eq_ok e
    obtain ⟨s2, e6, e⟩ := Outcome.bind_eq_ok e
    obtain ⟨s3, e7, e⟩ := Outcome.bind_eq_ok e
    obtain ⟨rfl, _⟩ := Prod.mk.inj (Outcome.ok.inj e)
    rw [if_pos hn] at e5
    have k1 : KeptW C s1.w.src := posixMalloc_kept h1 h2 e5 h
    have k2 : KeptW C s2.w.src := by
      split at e6
      · obtain ⟨g, _, e6⟩ := Outcome.bind_eq_ok e6
        obtain ⟨m, _, e6⟩ := Outcome.bind_eq_ok e6
        obtain rfl := Outcome.ok.inj e6; exact k1
      · obtain rfl := Outcome.ok.inj e6; exact k1
    rw [if_pos hp] at e7
    exact posixFree_kept h1 h2 free_keptW e7 k2

theorem spawn_size {s s' : PS} {a z pb : Nat} (e : posixSpawn s a z pb = .ok s') : s'.w.src.size = s.w.src.size := by
  unfold posixSpawn at e
  obtain ⟨u, e1, e⟩ := Outcome.bind_eq_ok e
  obtain rfl := Outcome.ok.inj e
  show u.w.src.size = _
  unfold userInit at e1
  obtain ⟨u1, e2, e1⟩ := Outcome.bind_eq_ok e1
  unfold chainBaseInit at e2
  obtain ⟨⟨x, P⟩, _, e2⟩ := Outcome.bind_eq_ok e2
  obtain rfl := Outcome.ok.inj e2
  unfold userRefill at e1
  simp at e1
  rw [← e1]
  rfl

theorem pexec_kept {s s' : PS} {op : POp} {r : Nat} (e : pexec C s op = .ok (s', r)) (h : Kept C s.w.src) :
    KeptW C s'.w.src := by
  cases op with
  | spawn a z pb =>
    obtain ⟨s1, e1, e⟩ := Outcome.bind_eq_ok e
    obtain ⟨rfl, _⟩ := Prod.mk.inj (Outcome.ok.inj e)
    have := spawn_size h1 h2 e1
    exact Or.inl (by rw [this]; exact h)
  | malloc t hk n => exact posixMalloc_kept h1 h2 e h
  | memalign t b n => exact posixMemalign_kept h1 h2 e h
  | calloc t hk n k =>
    have e : posixCalloc C hk s t n k = .ok (s', r) := e
    unfold posixCalloc at e
    obtain ⟨⟨s1, r1⟩, e1, e⟩ := Outcome.bind_eq_ok e
    obtain ⟨m, _, e⟩ := Outcome.bind_eq_ok e
    obtain ⟨rfl, _⟩ := Prod.mk.inj (Outcome.ok.inj e)
    have := posixMalloc_kept h1 h2 e1 h
    exact this
  | free t p =>
    obtain ⟨s1, e1, e⟩ := Outcome.bind_eq_ok e
    obtain ⟨rfl, _⟩ := Prod.mk.inj (Outcome.ok.inj e)
    exact Kept.w _ (posixFree_kept h1 h2 free_kept e1 h)
  | realloc t p hk n => exact posixRealloc_kept h1 h2 e h
  | write a v =>
    obtain ⟨rfl, _⟩ := Prod.mk.inj (Outcome.ok.inj e)
    exact Or.inl h

theorem look_src {k k' : MS} {p : Nat} {x : Option (Nat × Nat)} (e : k.look p = .ok (k', x)) : k'.w.src = k.w.src := by
  unfold MS.look at e
  obtain ⟨⟨R, b⟩, _, e⟩ := Outcome.bind_eq_ok e
  simp only at e
  split at e
  · obtain ⟨rfl, _⟩ := Prod.mk.inj (Outcome.ok.inj e); rfl
  split at e
  · cases e
  obtain ⟨i, _, e⟩ := Outcome.bind_eq_ok e
  obtain ⟨rfl, _⟩ := Prod.mk.inj (Outcome.ok.inj e); rfl

theorem purgeStep_kept {k k' : MS} {t : Nat} {j : Job} {c : Queue.CPC} (e : purgeStep C k t j c = .ok k') (h : Kept C k.w.src) :
    Kept C k'.w.src := by
  cases c with
  | dfree cur nxt =>
    simp only [purgeStep] at e
    obtain ⟨u, e1, e⟩ := Outcome.bind_eq_ok e
    obtain ⟨u2, e2, e⟩ := Outcome.bind_eq_ok e
    obtain rfl := Outcome.ok.inj e
    have : Kept C u2.w.src := chainFree_src free_kept e2 (by rw [loc_w h1 h2 e1]; exact h)
    exact this
  | idle | load | dread cur =>
    obtain rfl := Outcome.ok.inj e
    first
      | exact h
      | (split <;> exact h)
  | clearHead hd | swapTail hd =>
    obtain rfl := Outcome.ok.inj e
    exact h
  | walk hd tl cur =>
    simp only [purgeStep] at e
    split at e
    · obtain rfl := Outcome.ok.inj e; exact h
    split at e
    · cases e
    obtain rfl := Outcome.ok.inj e
    split <;> exact h
  | adv hd tl cur =>
    simp only [purgeStep] at e
    split at e
    · cases e
    obtain rfl := Outcome.ok.inj e; exact h

theorem mstep_kept {k k' : MS} {t : Nat} {o : Option Nat} (e : mstep C k t = .ok (k', o)) (h : Kept C k.w.src) :
    KeptW C k'.w.src := by
  unfold mstep at e
  split at e
  · obtain ⟨rfl, _⟩ := Prod.mk.inj (Outcome.ok.inj e); exact Kept.w _ h
  · obtain ⟨k1, e1, e⟩ := Outcome.bind_eq_ok e
    obtain ⟨rfl, _⟩ := Prod.mk.inj (Outcome.ok.inj e)
    exact Kept.w _ (purgeStep_kept h1 h2 e1 h)
  · obtain ⟨u, e1, e⟩ := Outcome.bind_eq_ok e
    obtain ⟨⟨u2, r⟩, e2, e⟩ := Outcome.bind_eq_ok e
    have hu : KeptW C u2.w.src :=
      allocAlign_src Kept.w (request_kept h1 h2) e2 (by rw [loc_w h1 h2 e1]; exact h)
    simp only at e
    split at e <;> obtain ⟨rfl, _⟩ := Prod.mk.inj (Outcome.ok.inj e) <;> exact hu
  · obtain ⟨m, _, e⟩ := Outcome.bind_eq_ok e
    obtain ⟨rfl, _⟩ := Prod.mk.inj (Outcome.ok.inj e); exact Kept.w _ h
  · obtain ⟨m, _, e⟩ := Outcome.bind_eq_ok e
    obtain ⟨rfl, _⟩ := Prod.mk.inj (Outcome.ok.inj e); exact Kept.w _ h
  · split at e
    · obtain ⟨rfl, _⟩ := Prod.mk.inj (Outcome.ok.inj e); exact Kept.w _ h
    obtain ⟨u, _, e⟩ := Outcome.bind_eq_ok e
    obtain ⟨⟨k1, x⟩, e1, e⟩ := Outcome.bind_eq_ok e
    have hk : Kept C k1.w.src := by rw [look_src h1 h2 e1]; exact h
    simp only at e
    split at e
    · split at e
      · cases e
      · obtain ⟨rfl, _⟩ := Prod.mk.inj (Outcome.ok.inj e); exact Kept.w _ hk
    · obtain ⟨v, _, e⟩ := Outcome.bind_eq_ok e
      split at e <;> obtain ⟨rfl, _⟩ := Prod.mk.inj (Outcome.ok.inj e) <;> exact Kept.w _ hk
  · obtain ⟨v, e1, e⟩ := Outcome.bind_eq_ok e
    obtain ⟨v2, e2, e⟩ := Outcome.bind_eq_ok e
    have hv : Kept C v2.w.src := chainFree_src free_kept e2 (by rw [loc_w h1 h2 e1]; exact h)
    obtain ⟨rfl, _⟩ := Prod.mk.inj (Outcome.ok.inj e); exact Kept.w _ hv
  · rename_i i c r _
    cases c with
    | idle =>
      obtain ⟨rfl, _⟩ := Prod.mk.inj (Outcome.ok.inj e); exact Kept.w _ h
    | clear en =>
      simp only [pushStep] at e
      obtain ⟨v, _, e⟩ := Outcome.bind_eq_ok e
      split at e
      · cases e
      · obtain ⟨rfl, _⟩ := Prod.mk.inj (Outcome.ok.inj e); exact Kept.w _ h
    | swap en =>
      obtain ⟨rfl, _⟩ := Prod.mk.inj (Outcome.ok.inj e); exact Kept.w _ h
    | link en q =>
      simp only [pushStep] at e
      split at e <;> obtain ⟨rfl, _⟩ := Prod.mk.inj (Outcome.ok.inj e) <;> exact Kept.w _ h
  · obtain ⟨u, _, e⟩ := Outcome.bind_eq_ok e
    obtain ⟨⟨k1, x⟩, e1, e⟩ := Outcome.bind_eq_ok e
    have hk : Kept C k1.w.src := by rw [look_src h1 h2 e1]; exact h
    simp only at e
    split at e
    · cases e
    · obtain ⟨v, _, e⟩ := Outcome.bind_eq_ok e
      split at e <;> obtain ⟨rfl, _⟩ := Prod.mk.inj (Outcome.ok.inj e) <;> exact Kept.w _ hk
  · obtain ⟨v, e1, e⟩ := Outcome.bind_eq_ok e
    obtain ⟨⟨v2, r⟩, e2, e⟩ := Outcome.bind_eq_ok e
    have hv : KeptW C v2.w.src :=
      chainRealloc_src Kept.w (request_kept h1 h2) free_keptW e2 (by rw [loc_w h1 h2 e1]; exact h)
    obtain ⟨rfl, _⟩ := Prod.mk.inj (Outcome.ok.inj e); exact hv

end calls

theorem start_src (k : MS) (t : Nat) (op : MCall) : (k.start t op).w = k.w := by
  cases op with
  | malloc b n => rfl
  | calloc b n j => rfl
  | free p => rfl
  | realloc p b n =>
    unfold MS.start
    simp only
    split
    · rfl
    · split <;> rfl

theorem PReach.kept {C : Config} {X : POp → Prop} {s : PS} {G : PSpec} (hf : C.reallocFactor ≠ 0) (h : PReach C X s G) :
    Kept C s.w.src := by
  induction h with
  | init => exact Nat.zero_le _
  | @step s s' G op r h hv hx e ih =>
    obtain ⟨H, L, D, B, K⟩ := (PReach.step h hv hx e).inv (cl := False) hf False.elim
    exact B.lin.kept (fun h1 h2 => pexec_kept h1 h2 e ih)

theorem MReach.kept {C : Config} {X : MCall → Prop} {k : MS} (hf : C.reallocFactor ≠ 0) (h : MReach C X k) :
    Kept C k.w.src := by
  induction h with
  | init => exact Nat.zero_le _
  | call _ _ _ _ _ ih => rw [start_src]; exact ih
  | @step k k' t o h e ih =>
    obtain ⟨Ω, _, I⟩ := (MReach.step h e).inv (cl := False) hf False.elim
    obtain ⟨H, L, D, B, K⟩ := I.inv
    exact B.lin.kept (fun h1 h2 => mstep_kept h1 h2 e ih)
  | write _ _ _ ih => exact ih
  | @spawn k s a z pb h hv e ih =>
    obtain ⟨Ω, _, I⟩ := (MReach.spawn h hv e).inv (cl := False) hf False.elim
    obtain ⟨H, L, D, B, K⟩ := I.inv
    exact B.lin.kept (fun h1 h2 => Or.inl (by
      show s.w.src.size ≤ _
      rw [spawn_size h1 h2 e]; exact ih))

/-- C81, the cache, for calls one at a time: whatever the threads call, the blocs that the source keeps make together at
most `keep_mem + keep_max` bytes, and its size counts them. -/
theorem C81_cache {C : Config} {X : POp → Prop} {s : PS} {G : PSpec} (hf : C.reallocFactor ≠ 0) (h : PReach C X s G) :
    ∃ L, Cached s.w.mem s.w.src L ∧ s.w.src.size = (L.map Prod.snd).sum ∧
      (L.map Prod.snd).sum ≤ C.keepMem + C.keepMax := by
  obtain ⟨H, L, D, B, K⟩ := h.inv (cl := False) hf False.elim
  exact ⟨L, B.lin.cache, B.lin.size, B.lin.size ▸ h.kept hf⟩

/-- C81, the cache, for interleaved calls. -/
theorem C81_cache_interleaved {C : Config} {X : MCall → Prop} {k : MS} (hf : C.reallocFactor ≠ 0) (h : MReach C X k) :
    ∃ L, Cached k.w.mem k.w.src L ∧ k.w.src.size = (L.map Prod.snd).sum ∧
      (L.map Prod.snd).sum ≤ C.keepMem + C.keepMax := by
  obtain ⟨Ω, _, I⟩ := h.inv (cl := False) hf False.elim
  obtain ⟨H, L, D, B, K⟩ := I.inv
  exact ⟨L, B.lin.cache, B.lin.size, (show k.w.src.size = _ from B.lin.size) ▸ h.kept hf⟩

/-- C81, the blocs, for interleaved calls: those that are not in the cache are at most as many as the blocks, counting the
blocks that wait for their owner and those of calls that have not ended. Missing: requests that need a chunk of 1 MB, for
which it is false (`C78_refuted`). -/
theorem C81_blocs_partial {C : Config} {k : MS} (hf : C.reallocFactor ≠ 0) (h : MReach C MClean k) :
    k.w.src.counter ≤ k.G.live.length + k.G.hand.length + k.G.queued.length := by
  obtain ⟨Ω, _, I⟩ := h.inv (cl := True) hf (fun _ _ h => h)
  obtain ⟨H, L, D, B, K⟩ := I.inv
  have hap := (List.pairwise_append.1 B.lin.apart).1
  have key : (shapes H).length ≤ (k.G.all.map PBlock.ptr).length := by
    refine hit_le _ _ hap (fun d hd => ?_)
    obtain ⟨t, g, hg, hd⟩ := mem_shapes.1 hd
    obtain ⟨l, hl, _, h1, h2⟩ := PInv.bloc_block B K hg hd
    have hl : l ∈ k.G.all ++ [] := hl
    rw [List.append_nil] at hl
    exact ⟨l.ptr, List.mem_map_of_mem hl, h1, h2⟩
  unfold MSpec.all at key
  simp only [List.length_map, List.length_append] at key
  have := B.lin.cnt
  have : k.w.src.counter = (shapes H).length := this
  rw [this]
  omega

/-- The limit `keep_mem` itself is not kept: with `keep_mem = 0`, which asks to keep nothing, a bloc of 2 MB that is given
back stays in the cache. -/
theorem C81_limit_refuted (m : Mem) : ∃ m' s', LHist { Config.default with keepMem := 0 } false m' s' [] ∧ s'.size = MB2 := by
  have hi : LInv m (Light.init ⟨fun _ => 4096, 0, fun _ => false⟩) [] [] := Light.init_inv m _
  rcases lightRequest_ok (C := { Config.default with keepMem := 0 }) hi (size := MB2) (by decide) (by decide) with
    ⟨hn, _⟩ | ⟨m1, s1, p, L1, e1, r⟩
  · exact absurd ⟨by decide, by show (4096 : Nat) ≠ 0; decide, by show 4096 % 4096 = 0; decide,
      by show 4096 + pageUp MB2 ≤ _; decide, fun _ _ => rfl⟩ hn
  have hL : L1 = [] := List.eq_nil_iff_forall_not_mem.2 (fun d hd => by cases r.sub d hd)
  subst hL
  have h1 : LHist { Config.default with keepMem := 0 } false m1 s1 [(p, MB2)] := .request (.init m _) (by decide) (by decide) e1
  have hs : s1.size = 0 := r.inv.size
  obtain ⟨m2, s2, e2, h2, _⟩ := lightFree_ok (C := { Config.default with keepMem := 0 }) (O1 := []) (O2 := []) r.inv
  refine ⟨m2, s2, ?_, ?_⟩
  · have := LHist.free h1 (List.mem_singleton.2 rfl) e2
    simpa using this
  · rcases h2 with ⟨_, _, h3, _⟩ | ⟨h3, _⟩
    · rw [h3.size]; rfl
    · exact absurd ⟨by decide, hs.le⟩ h3

/-- Hypotheses of `C81_cache`: a thread has a block. -/
example : ∃ s G, PReach Config.default CleanOp s G ∧ G.live.length = 1 ∧ 0 < s.chs.length := by
  obtain ⟨s, r, h, hl, _⟩ := sample_block (C := Config.default) (X := CleanOp) (by decide) (fun _ _ _ => trivial) (n := 100)
    (by omega) (by unfold PSize; omega) (by omega) (by show CleanSize (reqSize 0 100); unfold CleanSize reqSize; simp)
  exact ⟨s, _, h, rfl, by omega⟩

/-- Hypotheses of `C81_cache_interleaved` and `C81_blocs_partial`: a thread waits in the queue of another one. -/
example : ∃ k r, MReach Config.default MClean k ∧ k.pc 1 = .push 0 (.link r 0) 0 := by
  obtain ⟨k, r, h, _, _, _, _, p1, _, _⟩ := msample_link (C := Config.default) (X := MClean) (by decide)
    (by show CleanSize (reqSize 0 100); unfold CleanSize reqSize; simp) (fun _ => trivial)
  exact ⟨k, r, h, p1⟩

end MpcAlloc
