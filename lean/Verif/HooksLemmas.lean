import Verif.Hooks
import Verif.HistoryLemmas

/-
The functions with hooks compared with those without.
-/

namespace MpcAlloc.Hooks

variable {σ : Type}

/-- The result without the events. -/
def er {α : Type} (x : Outcome (α × List Ev)) : Outcome α := x >>= fun r => .ok r.1
/-- The result without the events, for the calls that return a pointer. -/
def er2 {α β : Type} (x : Outcome (α × β × List Ev)) : Outcome (α × β) := x >>= fun r => .ok (r.1, r.2.1)

theorem bind_assoc' {α β γ : Type} (x : Outcome α) (f : α → Outcome β) (g : β → Outcome γ) :
    ((x >>= f) >>= g) = (x >>= fun a => f a >>= g) := by cases x <;> rfl

theorem bind_congr' {α β : Type} (x : Outcome α) {f g : α → Outcome β} (h : ∀ a, f a = g a) : (x >>= f) = (x >>= g) := by
  cases x <;> simp [h]

theorem requestMemH_er (H : Tab) (S : Source σ) (s : CS σ) (n : Nat) : er2 (requestMemH H S s n) = requestMem S s n := by
  unfold requestMemH requestMem er2
  split
  · rfl
  · rw [bind_assoc']
    refine bind_congr' _ fun ⟨m, src, bloc⟩ => ?_
    rw [bind_assoc']
    refine bind_congr' _ fun ⟨s', v⟩ => ?_
    simp only [Outcome.ok_bind]
    split
    · rename_i h
      subst h
      rfl
    · rfl

theorem refillMemH_er (H : Tab) (S : Source σ) (s : CS σ) (n : Nat) : er2 (refillMemH H S s n) = refillMem S s n := by
  unfold refillMemH refillMem
  rw [← requestMemH_er H]
  unfold er2
  rw [bind_assoc', bind_assoc']
  refine bind_congr' _ fun ⟨s', v, e⟩ => ?_
  simp only [Outcome.ok_bind]
  split
  · rfl
  · rw [bind_assoc']; rfl

/-- The locked part cut in two. -/
theorem allocLocked_eq (H : Tab) (S : Source σ) (s : CS σ) (n : Nat) : allocLocked S s n =
    (er2 (searchH H S s n) >>= fun r => if r.2 = 0 then .ok (r.1, 0) else er2 (takeH Tab.none r.1 r.2 n)) := by
  unfold allocLocked searchH er2
  rw [bind_assoc', bind_assoc']
  refine bind_congr' _ fun ⟨h, chunk⟩ => ?_
  simp only
  have tail : ∀ (s : CS σ) (chunk : Nat), (if chunk = 0 then pure (s, 0) else
      if hSize s.w.mem chunk < 32 then .abort else do
        let (m, v, res) ← splitFreeBloc s.w.mem (largeToV chunk) n
        let s := s.setMem m
        if getSize s.w.mem v < calcChunkSize n then .abort else
        if res ≠ 0 then do
          let h ← freeListInsert s.c.pool s.heap (vLarge res) false
          return (s.setHeap h, v)
        else return (s, v) : Outcome (CS σ × Nat)) =
      (if chunk = 0 then .ok (s, 0) else (takeH Tab.none s chunk n >>= fun r => .ok (r.1, r.2.1))) := by
    intro s chunk
    split
    · rfl
    · unfold takeH
      split
      · rfl
      · rw [bind_assoc']
        refine bind_congr' _ fun ⟨m, v, res⟩ => ?_
        simp only
        have e : getSize (s.setMem m).w.mem v = getSize m v := rfl
        rw [e]
        split
        · rfl
        · split
          · rw [bind_assoc']
            refine bind_congr' _ fun h => ?_
            simp [splitHook, Tab.none]
          · rfl
  split
  · rw [← refillMemH_er H]
    unfold er2
    simp only [bind_assoc']
    refine bind_congr' _ fun ⟨s1, b, e⟩ => ?_
    simp only [Outcome.ok_bind]
    split
    · simp only [bind_assoc']
      refine bind_congr' _ fun ⟨h2, c2⟩ => ?_
      simp only [Outcome.ok_bind, Outcome.pure_eq]
      exact tail _ _
    · simp only [Outcome.ok_bind, Outcome.pure_eq, if_true]
  · simp only [Outcome.ok_bind, Outcome.pure_eq]
    exact tail _ _

theorem splitHook_cases (H : Tab) (s : CS σ) (v res : Nat) :
    (∃ e, splitHook H s v res = .ok e) ∨ (splitHook H s v res = .abort ∧ getPtr s.w.mem v = .abort) := by
  unfold splitHook
  split
  · rcases getPtr_cases s.w.mem v with ⟨a, h⟩ | h
    · exact Or.inl ⟨_, by rw [h]; rfl⟩
    · exact Or.inr ⟨by rw [h]; rfl, h⟩
  · exact Or.inl ⟨_, rfl⟩

/-- The event of a split only adds a possible abort. -/
theorem takeH_er (H : Tab) (s : CS σ) (chunk n : Nat) {s' : CS σ} {v : Nat} {e : List Ev}
    (h : takeH H s chunk n = .ok (s', v, e)) : er2 (takeH Tab.none s chunk n) = .ok (s', v) := by
  unfold takeH er2 at *
  split at h
  · cases h
  · rename_i h32
    rw [if_neg h32, bind_assoc']
    obtain ⟨⟨m, v1, res⟩, e1, h1⟩ := Outcome.bind_eq_ok h
    rw [e1, Outcome.ok_bind]
    simp only at h1 ⊢
    split at h1
    · cases h1
    · rename_i hs
      rw [if_neg hs]
      split at h1
      · rename_i hr
        rw [if_pos hr, bind_assoc']
        obtain ⟨h2, e2, h3⟩ := Outcome.bind_eq_ok h1
        rw [e2, Outcome.ok_bind]
        obtain ⟨e4, e3, h4⟩ := Outcome.bind_eq_ok h3
        cases h4
        simp [splitHook, Tab.none]
      · rename_i hr
        rw [if_neg hr]
        cases h1
        rfl

theorem allocLockedH_er {H : Tab} {S : Source σ} {s s' : CS σ} {n v : Nat} {e : List Ev}
    (h : allocLockedH H S s n = .ok (s', v, e)) : allocLocked S s n = .ok (s', v) := by
  rw [allocLocked_eq H]
  unfold allocLockedH at h
  obtain ⟨⟨s1, c, e1⟩, h1, h2⟩ := Outcome.bind_eq_ok h
  unfold er2
  rw [h1]
  simp only [Outcome.ok_bind] at h2 ⊢
  split at h2
  · rename_i hc
    rw [if_pos hc]
    cases h2
    rfl
  · rename_i hc
    rw [if_neg hc]
    obtain ⟨⟨s2, v2, e2⟩, h3, h4⟩ := Outcome.bind_eq_ok h2
    cases h4
    have := takeH_er H _ _ _ h3
    unfold er2 at this
    exact this

/-! ### The pad -/

/-- The stores of a padded header. -/
def padWrite (m : Mem) (v p k : Nat) : Mem :=
  setMagic (setType (setState (setPadding m p k) (p + 7) (infoState (setPadding m p k) v)) (p + 7) TPADDED) (p + 7) MAGIC

theorem padWrite_byte {m : Mem} {v p k : Nat} (hp : v < p ∨ p + 7 < v) :
    (padWrite m v p k (p + 7)).toNat = TPADDED % 4 + 4 * infoState m v + 8 * (MAGIC % 32) := by
  unfold padWrite
  rw [setInfo3]
  have : infoState (setPadding m p k) v = infoState m v := by
    unfold infoState setPadding
    rw [writeLE_other (by omega)]
  rw [this]
  have : infoState m v < 2 := by unfold infoState; omega
  omega

theorem padWrite_low {m : Mem} {v p k x : Nat} (h1 : p ≤ x) (h2 : x < p + 7) :
    padWrite m v p k x = UInt8.ofNat (k / 256 ^ (x - p)) := by
  unfold padWrite
  rw [setMagic_other (by omega), setType_other (by omega), setState_other (by omega)]
  unfold setPadding writeLE
  rw [if_pos ⟨h1, h2⟩]

theorem padWrite_other {m : Mem} {v p k x : Nat} (h : x < p ∨ p + 8 ≤ x) : padWrite m v p k x = m x := by
  unfold padWrite
  rw [setMagic_other (by omega), setType_other (by omega), setState_other (by omega)]
  unfold setPadding
  rw [writeLE_other (by omega)]

theorem padWrite_again {m : Mem} {v p k : Nat} (hp : v < p ∨ p + 7 < v) :
    padWrite (padWrite m v p k) v p k = padWrite m v p k := by
  funext x
  by_cases h1 : x < p ∨ p + 8 ≤ x
  · rw [padWrite_other h1]
  · by_cases h2 : x = p + 7
    · subst h2
      apply UInt8.toNat_inj.1
      rw [padWrite_byte hp, padWrite_byte hp]
      have : infoState (padWrite m v p k) v = infoState m v := by
        unfold infoState
        rw [padWrite_other (by omega)]
      rw [this]
    · rw [padWrite_low (by omega) (by omega), padWrite_low (by omega) (by omega)]

theorem setupChunkPadded_again {m : Mem} {v b : Nat} (hb : b + 8 ≤ W64) :
    setupChunkPadded (setupChunkPadded m v b).1 v b = setupChunkPadded m v b := by
  unfold setupChunkPadded
  simp only
  split
  · rename_i h
    obtain ⟨h1, h2, h3⟩ := h
    have hbody : chunkBody v = add64 v 1 := by unfold chunkBody; rw [if_neg h2]
    rw [hbody]
    generalize hq : (if add64 (add64 v 1) 8 % b ≠ 0 then
      add64 (add64 (add64 v 1) 8) (sub64 b (add64 (add64 v 1) 8 % b)) else add64 (add64 v 1) 8) = q
    have hmod := Nat.mod_lt (add64 (add64 v 1) 8) (show 0 < b by omega)
    have hp : v < sub64 q 8 ∨ sub64 q 8 + 7 < v := by
      have hc : ∃ j, j < b ∧ q = add64 (add64 (add64 v 1) 8) j := by
        by_cases hz : add64 (add64 v 1) 8 % b ≠ 0
        · rw [if_pos hz] at hq
          refine ⟨b - add64 (add64 v 1) 8 % b, by omega, ?_⟩
          rw [← hq, sub64_eq (by omega) (by omega)]
        · rw [if_neg hz] at hq
          refine ⟨0, by omega, ?_⟩
          rw [← hq]
          unfold add64; omega
      obtain ⟨j, hj, rfl⟩ := hc
      unfold add64 sub64
      omega
    have := padWrite_again (m := m) (k := sub64 (sub64 q 8) (add64 v 1)) hp
    unfold padWrite at this
    simp only [this]
  · rfl

theorem padAndReturn_again {s : CS σ} {v b : Nat} (hb : b + 8 ≤ W64) :
    padAndReturn (s.setMem (hookPad s.w.mem v b).1) v b = padAndReturn s v b := by
  unfold padAndReturn hookPad
  by_cases h : b > 1
  · simp only [if_pos h]
    have e : (s.setMem (setupChunkPadded s.w.mem v b).1).w.mem = (setupChunkPadded s.w.mem v b).1 := rfl
    rw [e, setupChunkPadded_again hb]
    rfl
  · simp only [if_neg h]
    rfl

/-- The pointer of the event is the one that is returned. -/
theorem hookPad_ptr (s : CS σ) (v b : Nat) : (hookPad s.w.mem v b).2 = (padAndReturn s v b).2 := by
  unfold padAndReturn hookPad chunkBody
  simp only
  split <;> split <;> simp_all

theorem hookPad_mem (s : CS σ) (v b : Nat) : s.setMem (hookPad s.w.mem v b).1 = (padAndReturn s v b).1 := by
  unfold padAndReturn hookPad
  rfl

theorem unlockIf_setMem (s : CS σ) (m : Mem) : unlockIf (s.setMem m) = (unlockIf s >>= fun s => .ok (s.setMem m)) := by
  unfold unlockIf
  have e1 : (s.setMem m).c = s.c := rfl
  rw [e1]
  split
  · rfl
  · split <;> rfl

theorem unlockIf_mem {s s' : CS σ} (h : unlockIf s = .ok s') : s'.w = s.w := by
  unfold unlockIf at h
  split at h
  · cases h
  · split at h <;> · cases h; rfl

/-- The event of an allocation and the release of the lock: what is returned is as without the event. -/
theorem allocHook_tail (H : Tab) (s : CS σ) {v b n : Nat} (hb : b + 8 ≤ W64) :
    (unlockIf (allocHook H s v b n).1 >>= fun u => .ok (padAndReturn u v b)) =
      (unlockIf s >>= fun u => .ok (padAndReturn u v b)) := by
  unfold allocHook
  split
  · simp only
    rw [unlockIf_setMem, bind_assoc']
    cases hu : unlockIf s with
    | ok u =>
      have hw := unlockIf_mem hu
      simp only [Outcome.ok_bind]
      rw [← hw, padAndReturn_again hb]
    | abort => rfl
    | ub => rfl
    | diverge => rfl
  · rfl

/-- Whatever the state: an allocation that ends with hooks ends in the same way without. -/
theorem allocAlignH_er {H : Tab} {S : Source σ} {s s' : CS σ} {b n r : Nat} {e : List Ev} (hb : b + 8 ≤ W64)
    (h : allocAlignH H S s b n = .ok (s', r, e)) : allocAlign S s b n = .ok (s', r) := by
  unfold allocAlignH at h
  unfold allocAlign
  split at h
  · cases h
  · rename_i hd
    rw [if_neg hd]
    split at h
    · rename_i hn
      rw [if_pos hn]
      cases h
      rfl
    · rename_i hn
      rw [if_neg hn]
      simp only at h ⊢
      generalize (if b > 1 then add64 n b else n) = N at *
      split at h
      · rename_i hh
        rw [if_pos hh]
        obtain ⟨⟨s1, v, e1⟩, h1, h2⟩ := Outcome.bind_eq_ok h
        have hr := requestMemH_er H S s N
        rw [h1] at hr
        unfold er2 at hr
        rw [Outcome.ok_bind] at hr
        rw [← hr, Outcome.ok_bind]
        obtain ⟨⟨s2, e2⟩, h3, h4⟩ := Outcome.bind_eq_ok h2
        simp only at h3 h4 ⊢
        unfold hugeHook at h3
        split at h3
        · split at h3
          · cases h3
          · cases h3
            rw [padAndReturn_again hb] at h4
            cases h4
            rfl
        · cases h3
          cases h4
          rfl
      · rename_i hh
        rw [if_neg hh]
        obtain ⟨s1, h1, h2⟩ := Outcome.bind_eq_ok h
        rw [h1, Outcome.ok_bind]
        obtain ⟨⟨s2, v, e1⟩, h3, h4⟩ := Outcome.bind_eq_ok h2
        rw [allocLockedH_er h3, Outcome.ok_bind]
        simp only at h4 ⊢
        split at h4
        · rename_i hv
          obtain ⟨s3, h5, h6⟩ := Outcome.bind_eq_ok h4
          rw [h5, Outcome.ok_bind, if_pos hv]
          cases h6
          rfl
        · rename_i hv
          obtain ⟨s3, h5, h6⟩ := Outcome.bind_eq_ok h4
          have ht := allocHook_tail H s2 (v := v) (b := b) (n := N) hb
          rw [h5, Outcome.ok_bind] at ht
          obtain ⟨s4, h7, h8⟩ := Outcome.bind_eq_ok ht.symm
          rw [h7, Outcome.ok_bind, if_neg hv]
          simp only [Outcome.ok.injEq] at h8
          cases h6
          rw [← h8]
          rfl

/-! ### Free, realloc, purge -/

theorem freeMacroBlocH_er (H : Tab) (S : Source σ) (s : CS σ) (v : Nat) :
    er (freeMacroBlocH H S s v) = freeMacroBloc S s v := by
  unfold freeMacroBlocH er
  by_cases h : getSize s.w.mem v % MB2 ≠ MB2 - 48
  · simp only [if_pos h]
    rw [bind_assoc']
    cases freeMacroBloc S s v <;> rfl
  · simp only [if_neg h]
    rcases getPtr_cases s.w.mem v with ⟨a, ha⟩ | ha
    · rw [ha]
      rw [bind_assoc']
      cases freeMacroBloc S s v <;> rfl
    · rw [ha]
      unfold freeMacroBloc
      rw [if_neg h, ha]
      rfl

theorem mergeH_er {H : Tab} {s s' : CS σ} {v v' : Nat} {e : List Ev} (h : mergeH H s v = .ok (s', v', e)) :
    ∃ q, (if s.c.noMerge then pure (s.heap, v) else mergeChunk s.c.pool s.heap v) = .ok q ∧ s' = s.setHeap q.1 ∧ v' = q.2 := by
  unfold mergeH at h
  obtain ⟨q, h1, h2⟩ := Outcome.bind_eq_ok h
  refine ⟨q, h1, ?_⟩
  split at h2
  · obtain ⟨p, _, h3⟩ := Outcome.bind_eq_ok h2
    cases h3
    exact ⟨rfl, rfl⟩
  · cases h2
    exact ⟨rfl, rfl⟩

theorem freeLockedH_er {H : Tab} {S : Source σ} {s s' : CS σ} {v : Nat} {e : List Ev}
    (h : freeLockedH H S s v = .ok (s', e)) : freeLocked S s v = .ok s' := by
  unfold freeLockedH at h
  unfold freeLocked
  obtain ⟨x, h1, h2⟩ := Outcome.bind_eq_ok h
  have h1' : (if s.c.base ≠ 0 then getChunk s.w.mem (add64 s.c.base 16) else pure 0) = .ok x := h1
  rw [h1', Outcome.ok_bind]
  obtain ⟨⟨s1, v1, e1⟩, h3, h4⟩ := Outcome.bind_eq_ok h2
  obtain ⟨⟨h5, v5⟩, h6, rfl, rfl⟩ := mergeH_er h3
  rw [h6, Outcome.ok_bind]
  simp only at h4 ⊢
  split at h4
  · rename_i hc
    rw [if_pos hc]
    obtain ⟨⟨s2, e2⟩, h7, h8⟩ := Outcome.bind_eq_ok h4
    cases h8
    rw [← freeMacroBlocH_er H, h7]
    rfl
  · rename_i hc
    rw [if_neg hc]
    obtain ⟨h9, h7, h8⟩ := Outcome.bind_eq_ok h4
    rw [h7]
    cases h8
    rfl

/-- Whatever the state: a free that ends with hooks ends in the same way without. -/
theorem chainFreeH_er {H : Tab} {S : Source σ} {C : Config} {s s' : CS σ} {p : Nat} {e : List Ev}
    (h : chainFreeH H S C s p = .ok (s', e)) : chainFree S C s p = .ok s' := by
  unfold chainFreeH at h
  unfold chainFree
  split at h
  · cases h
  · rename_i hd
    rw [if_neg hd]
    split at h
    · rename_i hp
      rw [if_pos hp]
      cases h
      rfl
    · rename_i hp
      rw [if_neg hp]
      obtain ⟨v, h1, h2⟩ := Outcome.bind_eq_ok h
      rw [h1, Outcome.ok_bind]
      split at h2
      · rename_i hv
        rw [if_pos hv]
        split at h2
        · cases h2
        · rename_i hs
          rw [if_neg hs]
          cases h2
          rfl
      · rename_i hv
        rw [if_neg hv]
        split at h2
        · cases h2
        · rename_i hi
          rw [if_neg hi]
          split at h2
          · rename_i hh
            rw [if_pos hh]
            obtain ⟨⟨s1, e1⟩, h3, h4⟩ := Outcome.bind_eq_ok h2
            cases h4
            rw [← freeMacroBlocH_er H, h3]
            rfl
          · rename_i hh
            rw [if_neg hh]
            obtain ⟨s1, h3, h4⟩ := Outcome.bind_eq_ok h2
            rw [h3, Outcome.ok_bind]
            obtain ⟨⟨s2, e2⟩, h5, h6⟩ := Outcome.bind_eq_ok h4
            rw [freeLockedH_er h5, Outcome.ok_bind]
            obtain ⟨s3, h7, h8⟩ := Outcome.bind_eq_ok h6
            cases h8
            exact h7

theorem chainReallocH_er {H : Tab} {S : Source σ} {C : Config} {s s' : CS σ} {b p n r : Nat} {e : List Ev} (hb : b + 8 ≤ W64)
    (h : chainReallocH H S C b s p n = .ok (s', r, e)) : chainRealloc S C b s p n = .ok (s', r) := by
  unfold chainReallocH at h
  unfold chainRealloc
  split at h
  · rename_i h0
    rw [if_pos h0]; cases h; rfl
  · rename_i h0
    rw [if_neg h0]
    split at h
    · rename_i hp
      rw [if_pos hp]
      exact allocAlignH_er hb h
    · rename_i hp
      rw [if_neg hp]
      split at h
      · rename_i hn
        rw [if_pos hn]
        obtain ⟨⟨s1, e1⟩, h1, h2⟩ := Outcome.bind_eq_ok h
        rw [chainFreeH_er h1]
        cases h2
        rfl
      · rename_i hn
        rw [if_neg hn]
        obtain ⟨v, h1, h2⟩ := Outcome.bind_eq_ok h
        rw [h1, Outcome.ok_bind]
        split at h2
        · rename_i hv
          rw [if_pos hv]
          obtain ⟨u, h3, h4⟩ := Outcome.bind_eq_ok h2
          rw [h3, Outcome.ok_bind]
          simp only at h4 ⊢
          split at h4
          · cases h4
          · rename_i hz
            rw [if_neg hz]
            split at h4
            · rename_i hk
              rw [if_pos hk]; cases h4; rfl
            · rename_i hk
              rw [if_neg hk]
              obtain ⟨⟨s1, r1, e1⟩, h5, h6⟩ := Outcome.bind_eq_ok h4
              have ha : chainAlloc S b s n = .ok (s1, r1) := allocAlignH_er hb h5
              rw [ha, Outcome.ok_bind]
              obtain ⟨s2, h7, h8⟩ := Outcome.bind_eq_ok h6
              have hc : (if r1 ≠ 0 then do
                  let m ← memCopy s1.w.mem r1 p (if sub64 u 16 < n then sub64 u 16 else n)
                  pure (s1.setMem m)
                else pure s1 : Outcome (CS σ)) = .ok s2 := by
                unfold copyTo at h7
                exact h7
              simp only
              rw [hc, Outcome.ok_bind]
              obtain ⟨⟨s3, e3⟩, h9, h10⟩ := Outcome.bind_eq_ok h8
              rw [chainFreeH_er h9]
              cases h10
              rfl
        · rename_i hv
          rw [if_neg hv]
          split at h2
          · cases h2
          · rename_i hs
            rw [if_neg hs]; cases h2; rfl

end MpcAlloc.Hooks
