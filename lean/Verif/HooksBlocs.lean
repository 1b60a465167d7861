import Verif.HooksTrace
import Verif.DestroyLemmas

/-
The events of the blocs against the calls of the source, and the purge of the queue with hooks.
-/

namespace MpcAlloc.Hooks

variable {σ : Type}

/-- The source `S` with a record of its calls: a request with the bloc it returned, or a free with its bloc. -/
def logS (S : Source σ) : Source (σ × List (Bool × Nat)) where
  request m x n := S.request m x.1 n >>= fun r => .ok (r.1, (r.2.1, x.2 ++ [(true, r.2.2)]), r.2.2)
  free m x b := S.free m x.1 b >>= fun r => .ok (r.1, (r.2, x.2 ++ [(false, b)]))

/-- The calls of the source told by the events. -/
def calls : List Ev → List (Bool × Nat)
  | [] => []
  | .addBloc _ b :: l => (true, b) :: calls l
  | .freeBloc _ b :: l => (false, b) :: calls l
  | _ :: l => calls l

theorem calls_append (l l' : List Ev) : calls (l ++ l') = calls l ++ calls l' := by
  induction l with
  | nil => rfl
  | cons e l ih => cases e <;> simp [calls, ih]

theorem regBloc_src {s s' : CS σ} {b v : Nat} (m : Mem) (v0 : Nat) (h : (if s.c.noRegion = true then Outcome.ok (s.setMem m, v0)
  else do
    let r ← regionSetEntry m s.w.regs s.c.addr b
    Outcome.ok ({ s with w := { s.w with mem := r.1, regs := r.2 } }, v0)) = .ok (s', v)) : s'.w.src = s.w.src := by
  split at h
  · cases h
    rfl
  · obtain ⟨⟨m, R⟩, h1, h2⟩ := Outcome.bind_eq_ok h
    cases h2
    rfl

theorem prepareBloc_src {s s' : CS σ} {b v : Nat} (h : prepareBloc s b = .ok (s', v)) : s'.w.src = s.w.src := by
  unfold prepareBloc at h
  split at h
  · cases h; rfl
  · simp only [setupChunk, Outcome.pure_eq] at h
    exact regBloc_src _ _ h

theorem lockIf_src {s s' : CS σ} (h : lockIf s = .ok s') : s'.w.src = s.w.src := by
  unfold lockIf at h
  split at h
  · cases h
  · split at h
    · split at h
      · cases h
      · cases h; rfl
    · cases h; rfl

theorem unlockIf_src {s s' : CS σ} (h : unlockIf s = .ok s') : s'.w.src = s.w.src := by
  unfold unlockIf at h
  split at h
  · cases h
  · split at h
    · cases h; rfl
    · cases h; rfl

variable {H : Tab} {S : Source σ} {C : Config} {s s' : CS (σ × List (Bool × Nat))} {e : List Ev}

theorem requestMemH_log (hA : H.addBloc = true) {n v : Nat} (h : requestMemH H (logS S) s n = .ok (s', v, e)) :
    s'.w.src.2 = s.w.src.2 ++ calls e := by
  unfold requestMemH at h
  split at h
  · cases h; simp [calls]
  · obtain ⟨r, h1, h2⟩ := Outcome.bind_eq_ok h
    simp only [logS] at h1
    obtain ⟨r', h3, h4⟩ := Outcome.bind_eq_ok h1
    cases h4
    obtain ⟨⟨t, w⟩, h5, h6⟩ := Outcome.bind_eq_ok h2
    have := prepareBloc_src h5
    cases h6
    simp only [emit, hA, if_true, calls]
    split
    · simp only [this]
    · simp only [this]

theorem refillMemH_log (hA : H.addBloc = true) {n : Nat} {b : Bool} (h : refillMemH H (logS S) s n = .ok (s', b, e)) :
    s'.w.src.2 = s.w.src.2 ++ calls e := by
  unfold refillMemH at h
  obtain ⟨⟨t, v, e1⟩, h1, h2⟩ := Outcome.bind_eq_ok h
  have := requestMemH_log hA h1
  split at h2
  · cases h2; exact this
  · obtain ⟨h', h3, h4⟩ := Outcome.bind_eq_ok h2
    cases h4
    exact this

theorem searchH_log (hA : H.addBloc = true) {n c : Nat} (h : searchH H (logS S) s n = .ok (s', c, e)) :
    s'.w.src.2 = s.w.src.2 ++ calls e := by
  unfold searchH at h
  obtain ⟨f, h1, h2⟩ := Outcome.bind_eq_ok h
  split at h2
  · obtain ⟨⟨t, b, e1⟩, h3, h4⟩ := Outcome.bind_eq_ok h2
    have := refillMemH_log hA h3
    cases b with
    | true =>
      rw [if_pos rfl] at h4
      obtain ⟨g, h5, h6⟩ := Outcome.bind_eq_ok h4
      cases h6
      exact this
    | false =>
      rw [if_neg (by simp)] at h4
      cases h4
      exact this
  · cases h2
    simp [calls, CS.setHeap]

theorem splitHook_calls {s : CS σ} {v res : Nat} (h : splitHook H s v res = .ok e) : calls e = [] := by
  unfold splitHook at h
  split at h
  · obtain ⟨p, h1, h2⟩ := Outcome.bind_eq_ok h
    cases h2; rfl
  · cases h; rfl

theorem takeH_log {s s' : CS σ} {c n v : Nat} (h : takeH H s c n = .ok (s', v, e)) : s'.w.src = s.w.src ∧ calls e = [] := by
  unfold takeH at h
  split at h
  · cases h
  · obtain ⟨q, h1, h2⟩ := Outcome.bind_eq_ok h
    split at h2
    · cases h2
    · split at h2
      · obtain ⟨h', h3, h4⟩ := Outcome.bind_eq_ok h2
        obtain ⟨ev, h5, h6⟩ := Outcome.bind_eq_ok h4
        cases h6
        exact ⟨rfl, splitHook_calls h5⟩
      · cases h2
        exact ⟨rfl, rfl⟩

theorem allocLockedH_log (hA : H.addBloc = true) {n v : Nat} (h : allocLockedH H (logS S) s n = .ok (s', v, e)) :
    s'.w.src.2 = s.w.src.2 ++ calls e := by
  unfold allocLockedH at h
  obtain ⟨⟨t, c, e1⟩, h1, h2⟩ := Outcome.bind_eq_ok h
  have := searchH_log hA h1
  split at h2
  · cases h2; exact this
  · obtain ⟨⟨u, w, e2⟩, h3, h4⟩ := Outcome.bind_eq_ok h2
    obtain ⟨k1, k2⟩ := takeH_log h3
    cases h4
    simp only
    rw [k1, this, calls_append, k2, List.append_nil]

theorem allocHook_log {s : CS σ} {v b n : Nat} : (allocHook H s v b n).1.w.src = s.w.src ∧ calls (allocHook H s v b n).2 = [] := by
  unfold allocHook
  split <;> exact ⟨rfl, rfl⟩

theorem padAndReturn_src {s : CS σ} {v b : Nat} : (padAndReturn s v b).1.w.src = s.w.src := rfl

theorem hugeHook_log {s s' : CS σ} {v b n : Nat} (h : hugeHook H s v b n = .ok (s', e)) : s'.w.src = s.w.src ∧ calls e = [] := by
  unfold hugeHook at h
  split at h
  · split at h
    · cases h
    · cases h; exact ⟨rfl, rfl⟩
  · cases h; exact ⟨rfl, rfl⟩

theorem allocAlignH_log (hA : H.addBloc = true) {b n r : Nat} (h : allocAlignH H (logS S) s b n = .ok (s', r, e)) :
    s'.w.src.2 = s.w.src.2 ++ calls e := by
  unfold allocAlignH at h
  split at h
  · cases h
  · split at h
    · cases h; simp [calls]
    · simp only at h
      generalize (if b > 1 then add64 n b else n) = N at h
      split at h
      · obtain ⟨⟨t, v, e1⟩, h1, h2⟩ := Outcome.bind_eq_ok h
        obtain ⟨⟨u, e2⟩, h3, h4⟩ := Outcome.bind_eq_ok h2
        obtain ⟨k1, k2⟩ := hugeHook_log h3
        have := requestMemH_log hA h1
        cases h4
        simp only
        rw [padAndReturn_src, k1, this, calls_append, k2, List.append_nil]
      · obtain ⟨s0, h1, h2⟩ := Outcome.bind_eq_ok h
        obtain ⟨⟨t, v, e1⟩, h3, h4⟩ := Outcome.bind_eq_ok h2
        have k := allocLockedH_log hA h3
        rw [lockIf_src h1] at k
        simp only at h4
        split at h4
        · obtain ⟨u, h5, h6⟩ := Outcome.bind_eq_ok h4
          cases h6
          rw [unlockIf_src h5]
          exact k
        · obtain ⟨u, h5, h6⟩ := Outcome.bind_eq_ok h4
          cases h6
          have k2 := allocHook_log (H := H) (s := t) (v := v) (b := b) (n := N)
          rw [padAndReturn_src, unlockIf_src h5, k2.1, k, calls_append, k2.2, List.append_nil]

theorem freeMacroBlocH_log (hF : H.freeBloc = true) {v : Nat} (h : freeMacroBlocH H (logS S) s v = .ok (s', e)) :
    s'.w.src.2 = s.w.src.2 ++ calls e := by
  unfold freeMacroBlocH at h
  obtain ⟨t, h1, h2⟩ := Outcome.bind_eq_ok h
  unfold freeMacroBloc at h1
  split at h2
  · rename_i hm
    rw [if_pos hm] at h1
    cases h1
    cases h2
    simp [calls]
  · rename_i hm
    rw [if_neg hm] at h1
    obtain ⟨a, h3, h4⟩ := Outcome.bind_eq_ok h1
    obtain ⟨R, h5, h6⟩ := Outcome.bind_eq_ok h4
    obtain ⟨q, h7, h8⟩ := Outcome.bind_eq_ok h6
    simp only [logS] at h7
    obtain ⟨r', h9, h10⟩ := Outcome.bind_eq_ok h7
    cases h10
    rw [h3, Outcome.ok_bind] at h2
    have hs : t.w.src.2 = s.w.src.2 ++ [(false, sub64 a 32)] := by
      simp only at h8
      split at h8 <;> (cases h8; rfl)
    cases h2
    rw [hs]
    simp [emit, hF, calls]

theorem mergeH_log {s s' : CS σ} {v v' : Nat} (h : mergeH H s v = .ok (s', v', e)) : s'.w.src = s.w.src ∧ calls e = [] := by
  unfold mergeH at h
  obtain ⟨q, h1, h2⟩ := Outcome.bind_eq_ok h
  split at h2
  · obtain ⟨p, _, h3⟩ := Outcome.bind_eq_ok h2
    cases h3
    exact ⟨rfl, rfl⟩
  · cases h2
    exact ⟨rfl, rfl⟩

theorem freeLockedH_log (hF : H.freeBloc = true) {v : Nat} (h : freeLockedH H (logS S) s v = .ok (s', e)) :
    s'.w.src.2 = s.w.src.2 ++ calls e := by
  unfold freeLockedH at h
  obtain ⟨_, _, h2⟩ := Outcome.bind_eq_ok h
  obtain ⟨⟨t, v', e1⟩, h3, h4⟩ := Outcome.bind_eq_ok h2
  obtain ⟨k1, k2⟩ := mergeH_log h3
  split at h4
  · obtain ⟨⟨u, e2⟩, h5, h6⟩ := Outcome.bind_eq_ok h4
    have := freeMacroBlocH_log hF h5
    cases h6
    simp only
    rw [this, k1, calls_append, k2, List.nil_append]
  · obtain ⟨h', h5, h6⟩ := Outcome.bind_eq_ok h4
    cases h6
    have : (t.setHeap h').w.src = t.w.src := rfl
    simp only
    rw [this, k1, k2, List.append_nil]

theorem calls_emit_free {b : Bool} {a p z : Nat} : calls (emit b (.free a p z)) = [] := by
  unfold emit; split <;> rfl

theorem calls_emit_hugeFree {b : Bool} {a p z : Nat} : calls (emit b (.hugeFree a p z)) = [] := by
  unfold emit; split <;> rfl

theorem chainFreeH_log (hF : H.freeBloc = true) {p : Nat} (h : chainFreeH H (logS S) C s p = .ok (s', e)) :
    s'.w.src.2 = s.w.src.2 ++ calls e := by
  unfold chainFreeH at h
  split at h
  · cases h
  · split at h
    · cases h; simp [calls]
    · obtain ⟨v, h1, h2⟩ := Outcome.bind_eq_ok h
      split at h2
      · split at h2
        · cases h2
        · cases h2; simp [calls]
      · split at h2
        · cases h2
        · split at h2
          · obtain ⟨⟨u, e2⟩, h5, h6⟩ := Outcome.bind_eq_ok h2
            have := freeMacroBlocH_log hF h5
            cases h6
            simp only
            rw [this, calls_append, calls_emit_hugeFree, List.nil_append]
          · obtain ⟨s1, h3, h4⟩ := Outcome.bind_eq_ok h2
            obtain ⟨⟨u, e2⟩, h5, h6⟩ := Outcome.bind_eq_ok h4
            obtain ⟨s3, h7, h8⟩ := Outcome.bind_eq_ok h6
            have := freeLockedH_log hF h5
            cases h8
            rw [unlockIf_src h7, this, lockIf_src h3, calls_append, calls_emit_free, List.nil_append]

theorem copyTo_src {s s' : CS σ} {r p n : Nat} (h : copyTo s r p n = .ok s') : s'.w.src = s.w.src := by
  unfold copyTo at h
  split at h
  · obtain ⟨m, _, h2⟩ := Outcome.bind_eq_ok h
    cases h2; rfl
  · cases h; rfl

theorem chainReallocH_log (hA : H.addBloc = true) (hF : H.freeBloc = true) {b p n r : Nat}
    (h : chainReallocH H (logS S) C b s p n = .ok (s', r, e)) : s'.w.src.2 = s.w.src.2 ++ calls e := by
  unfold chainReallocH at h
  split at h
  · cases h; simp [calls]
  · split at h
    · exact allocAlignH_log hA h
    · split at h
      · obtain ⟨⟨u, e2⟩, h5, h6⟩ := Outcome.bind_eq_ok h
        cases h6
        exact chainFreeH_log hF h5
      · obtain ⟨v, h1, h2⟩ := Outcome.bind_eq_ok h
        split at h2
        · obtain ⟨u, h3, h4⟩ := Outcome.bind_eq_ok h2
          split at h4
          · cases h4
          · split at h4
            · cases h4; simp [calls]
            · obtain ⟨⟨t, r', e1⟩, h5, h6⟩ := Outcome.bind_eq_ok h4
              obtain ⟨t2, h7, h8⟩ := Outcome.bind_eq_ok h6
              obtain ⟨⟨t3, e2⟩, h9, h10⟩ := Outcome.bind_eq_ok h8
              have k1 := allocAlignH_log hA h5
              have k2 := chainFreeH_log hF h9
              rw [copyTo_src h7, k1] at k2
              cases h10
              simp only
              rw [k2, calls_append, List.append_assoc]
        · split at h2
          · cases h2
          · cases h2; simp [calls]

theorem userRefill_src {s s' : CS σ} {b n : Nat} (h : userRefill s b n = .ok s') : s'.w.src = s.w.src := by
  unfold userRefill at h
  split at h
  · cases h
  · split at h
    · cases h
    · obtain ⟨t, h1, h2⟩ := Outcome.bind_eq_ok h
      have ht : t.w.src = s.w.src := by
        split at h1
        · obtain ⟨⟨u, v⟩, h3, h4⟩ := Outcome.bind_eq_ok h1
          obtain ⟨h', h5, h6⟩ := Outcome.bind_eq_ok h4
          have h7 := Outcome.ok.inj h6
          have h8 := prepareBloc_src h3
          rw [← h7]
          exact h8
        · rw [← Outcome.ok.inj h1]
      rw [← Outcome.ok.inj h2]
      exact ht

theorem execH_log (hA : H.addBloc = true) (hF : H.freeBloc = true) {op : Op} {r : Nat}
    (h : execH H (logS S) C s op = .ok (s', r, e)) : s'.w.src.2 = s.w.src.2 ++ calls e := by
  cases op with
  | alloc b n => exact allocAlignH_log hA h
  | free p =>
    simp only [execH] at h
    obtain ⟨⟨t, e'⟩, h1, h2⟩ := Outcome.bind_eq_ok h
    cases h2
    exact chainFreeH_log hF h1
  | realloc p b n => exact chainReallocH_log hA hF h
  | refill b z =>
    simp only [execH] at h
    obtain ⟨q, h1, h2⟩ := Outcome.bind_eq_ok h
    cases h2
    rw [userRefill_src h1]
    simp [calls]
  | write a v =>
    cases h
    simp [calls, CS.setMem]

/-- The loop of the purge with hooks, as a finite number of frees. -/
inductive PLoopH (H : Tab) (S : Source σ) (C : Config) : CS σ → Nat → CS σ → List Ev → Prop
  | nil {s : CS σ} : PLoopH H S C s 0 s []
  | cons {s s1 s2 : CS σ} {p : Nat} {e1 e2 : List Ev} : p ≠ 0 →
      chainFreeH H S C s (readLE s.w.mem (p + 8) 8) = .ok (s1, e1) → PLoopH H S C s1 (readLE s.w.mem p 8) s2 e2 →
      PLoopH H S C s p s2 (emit H.flushEntry (.flushEntry s.c.addr (readLE s.w.mem (p + 8) 8)) ++ e1 ++ e2)

theorem PLoopH.of {S : Source σ} {s s' : CS σ} {p : Nat} (h : purgeLoopH H S C s p = .ok (s', e)) : PLoopH H S C s p s' e := by
  have := purgeLoopH.fixpoint_induct H S C (fun f => ∀ (s : CS σ) (p : Nat) (r : CS σ × List Ev), f s p = .ok r → PLoopH H S C s p r.1 r.2) ?_ ?_
  · exact this s p _ h
  · apply Lean.Order.admissible_pi_apply (P := fun (s : CS σ) (f : Nat → Outcome (CS σ × List Ev)) =>
      ∀ p r, f p = .ok r → PLoopH H S C s p r.1 r.2)
    intro s
    apply Lean.Order.admissible_pi_apply (P := fun (p : Nat) (f : Outcome (CS σ × List Ev)) =>
      ∀ r, f = .ok r → PLoopH H S C s p r.1 r.2)
    intro p
    exact Lean.Order.admissible_flatOrder (b := Outcome.diverge) (P := fun (f : Outcome (CS σ × List Ev)) => ∀ r, f = .ok r → PLoopH H S C s p r.1 r.2)
      (by intro s' h; cases h)
  · intro f ih s p r h
    simp only at h
    by_cases hp : p = 0
    · rw [if_pos hp] at h
      cases h
      rw [hp]; exact .nil
    · rw [if_neg hp] at h
      obtain ⟨⟨s1, e1⟩, h1, h2⟩ := Outcome.bind_eq_ok h
      obtain ⟨⟨s2, e2⟩, h3, h4⟩ := Outcome.bind_eq_ok h2
      cases h4
      exact .cons hp h1 (ih _ _ _ h3)

theorem PLoopH.er {S : Source σ} {s s' : CS σ} {p : Nat} (h : PLoopH H S C s p s' e) : PLoop S C s p s' := by
  induction h with
  | nil => exact .nil
  | cons h1 h2 _ ih => exact .cons h1 (chainFreeH_er h2) ih

theorem purgeRfqH_er {S : Source σ} {s s' : CS σ} (h : purgeRfqH H S C s = .ok (s', e)) : purgeRfq S C s = .ok s' := by
  unfold purgeRfqH at h
  unfold purgeRfq
  split at h
  · cases h
  · rename_i hd
    rw [if_neg hd]
    split at h
    · rename_i h0
      rw [if_pos h0]
      cases h
      rfl
    · rename_i h0
      rw [if_neg h0]
      obtain ⟨u, h1, h2⟩ := Outcome.bind_eq_ok h
      obtain ⟨e1, h3, h4⟩ := Outcome.bind_eq_ok h2
      obtain ⟨⟨t, e2⟩, h5, h6⟩ := Outcome.bind_eq_ok h4
      simp only
      rw [h1, Outcome.ok_bind, (PLoopH.of h5).er.run]
      cases h6
      rfl

theorem PLoopH.log (hF : H.freeBloc = true) {p : Nat} (h : PLoopH H (logS S) C s p s' e) :
    s'.w.src.2 = s.w.src.2 ++ calls e := by
  induction h with
  | nil => simp [calls]
  | cons h1 h2 _ ih =>
    rw [ih, chainFreeH_log hF h2, calls_append, calls_append, List.append_assoc]
    have : ∀ (b : Bool) (x y : Nat), calls (emit b (.flushEntry x y)) = [] := by
      intro b x y; unfold emit; split <;> rfl
    rw [this, List.nil_append]

/-- The count of the entries of a list that is not empty never ends well. -/
theorem countLoop_bad {m : Mem} {entries cur cnt k : Nat} (he : entries ≠ 0) : countLoop m entries cur cnt ≠ .ok k := by
  have := countLoop.fixpoint_induct m entries (fun f => ∀ cur cnt k, f cur cnt ≠ .ok k) ?_ ?_
  · exact this cur cnt k
  · apply Lean.Order.admissible_pi_apply (P := fun (cur : Nat) (f : Nat → Outcome Nat) => ∀ cnt k, f cnt ≠ .ok k)
    intro cur
    apply Lean.Order.admissible_pi_apply (P := fun (cnt : Nat) (f : Outcome Nat) => ∀ k, f ≠ .ok k)
    intro cnt
    exact Lean.Order.admissible_flatOrder (b := Outcome.diverge) (P := fun f => ∀ k, f ≠ .ok k) (by intro k h; cases h)
  · intro f ih cur cnt k h
    simp only at h
    rw [if_neg he] at h
    split at h
    · cases h
    · exact ih _ _ _ h

end MpcAlloc.Hooks
