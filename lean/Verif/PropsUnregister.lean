import Verif.ChainStart
import Verif.PropsChain

/-
Property C47: the regions after the destruction of a chain.
-/

namespace MpcAlloc

variable {σ : Type}

/-- C47: after the destruction of a chain whose registered blocs are in the region of its base address, the addresses of
its blocs are no longer found, and those of the blocs of the other chains are found as before. Missing: blocs of the
chain in other regions, see `C47_refuted`, and the first 2 MB of the address space, see `C19_refuted`. `B` are the blocs
registered in the process; the owner of a bloc is its field `chain`, at offset 16. -/
theorem C47_destroy_partial {s s' : CS σ} {B : List (Nat × Nat)} {force : Bool} (h : RegInv s.w.mem s.w.regs B)
    (hr : s.c.noRegion = false)
    (hin : ∀ d ∈ B, readLE s.w.mem (d.1 + 16) 8 = s.c.addr →
      d.1 / TB1 = s.c.base / TB1 ∧ (d.1 + d.2 - 1) / TB1 = s.c.base / TB1)
    (e : chainDestroy s force = .ok s') {d : Nat × Nat} (hd : d ∈ B) {p : Nat} (hp : d.1 ≤ p ∧ p < d.1 + d.2)
    (h2 : MB2 < p) :
    ∃ R', regionGetMacroBloc s'.w.mem s'.w.regs p =
      .ok (R', if readLE s.w.mem (d.1 + 16) 8 = s.c.addr then 0 else d.1) := by
  unfold chainDestroy at e
  split at e
  · cases e
  split at e
  · cases e
  rw [if_neg (by rw [hr]; simp)] at e
  split at e
  · cases e
  cases e
  have I := h.del hin
  have hb := h.bloc d hd
  have L := I.lookups h2 (by omega)
  split
  · rename_i ho
    refine L.2 (fun f hf hc => ?_)
    rw [List.mem_filter] at hf
    rcases h.disj d hd f hf.1 with rfl | hdf | hdf
    · simp [ho] at hf
    · omega
    · omega
  · rename_i ho
    exact L.1 d (List.mem_filter.2 ⟨hd, by simpa using ho⟩) hp.1 hp.2

/-- A new chain over two macro blocs. -/
theorem start_at (X : Nat) (h1 : 8192 ≤ X) (h2 : 16 ∣ X) (h3 : X + 2 * MB2 ≤ 281474976710656) :
    ∃ s : CS Unit, Reach S0 Config.default 4096 s [] [(X, 2 * MB2)] ∧ s.c.noMerge = false ∧
      RegInv s.w.mem s.w.regs [(X, 2 * MB2)] ∧ s.c.addr = 4096 ∧ s.c.base = X ∧ s.c.rfqHead = 0 ∧ s.c.noRegion = false ∧
      readLE s.w.mem (X + 16) 8 = 4096 := by
  have hv : ValidOp 4096 [] [] (.refill X (2 * MB2)) :=
    ⟨by omega, h2, by omega, by omega, by omega, by omega, by omega, by simp⟩
  obtain ⟨s, A, e, H, I, _, ga, _, gm, gn, gb, gq, go, _⟩ := userStart_ok w0 (addr := 4096) (pb := 4096) true false
    (by omega) (by omega) w0_regs hv h3 (by omega) (fun _ => rfl)
  obtain ⟨s2, e2, R, _⟩ := userInit_reach S0 default_factor w0 (addr := 4096) (pb := 4096) true false false
    (by omega) (by omega) w0_regs hv (fun _ => ⟨h3, fun _ _ _ => rfl⟩)
  rw [e] at e2
  cases e2
  exact ⟨s, R, gm, I, ga, gb, gq, gn, by rw [go]⟩

/-- The hypotheses of `C47_destroy_partial` are met by a chain over 4 MB: its addresses are not found any more. -/
example : ∃ s s' : CS Unit, Reach S0 Config.default 4096 s [] [(8388608, 2 * MB2)] ∧ chainDestroy s false = .ok s' ∧
    (∃ R', regionGetMacroBloc s.w.mem s.w.regs 11000000 = .ok (R', 8388608)) ∧
    ∃ R', regionGetMacroBloc s'.w.mem s'.w.regs 11000000 = .ok (R', 0) := by
  obtain ⟨s, R, hm, I, ha, hb, hq, hn, ho⟩ := start_at 8388608 (by omega) (by omega) (by omega)
  have hc := C07_can_destroy default_factor R hm (by simp)
  obtain ⟨s', e⟩ : ∃ s', chainDestroy s false = .ok s' := by
    unfold chainDestroy
    rw [if_neg (by simp [hc]), if_neg (by rw [hq]; simp), if_neg (by rw [hn]; simp), if_neg (by rw [hb]; omega)]
    exact ⟨_, rfl⟩
  have h := C47_destroy_partial (p := 11000000) I hn (fun d hd _ => by
    rw [List.mem_singleton] at hd; subst hd; rw [hb]; simp) e (List.mem_singleton.2 rfl) (by simp) (by omega)
  rw [if_pos (by rw [ha]; exact ho)] at h
  exact ⟨s, s', R, e, (I.lookups (by omega) (by omega)).1 _ (List.mem_singleton.2 rfl) (by simp) (by simp), h⟩

/-- The blocs of another chain are found as before: two blocs, of which one belongs to the destroyed chain. -/
example : ∃ (s s' : CS Unit) (B : List (Nat × Nat)), RegHist s.w.mem s.w.regs B ∧ (10489856, 4194304) ∈ B ∧
    chainDestroy s true = .ok s' ∧ readLE s.w.mem (10489856 + 16) 8 ≠ s.c.addr ∧
    ∃ R', regionGetMacroBloc s'.w.mem s'.w.regs 11000000 = .ok (R', 10489856) := by
  obtain ⟨m, R, h⟩ := two_blocs
  obtain ⟨s0, _, _, _, ha, hb, hq, hn, _⟩ := start_at 8388608 (by omega) (by omega) (by omega)
  obtain ⟨m', h', ho⟩ : ∃ m', RegHist m' R [(14684160, 2097152), (10489856, 4194304)] ∧
      readLE m' (10489856 + 16) 8 = 5 := by
    refine ⟨writeLE m (10489856 + 16) 8 5, h.write (fun d hd => readLE_congr (fun x h1 h2 => writeLE_other ?_)), ?_⟩
    · simp only [List.mem_cons, List.not_mem_nil, or_false] at hd
      rcases hd with rfl | rfl <;> simp only at h1 h2 <;> omega
    · rw [readLE_writeLE_same]
  have e : chainDestroy (⟨⟨m', R, ()⟩, s0.c⟩ : CS Unit) true =
      .ok ⟨⟨m', regionDelChain m' R (s0.c.base / TB1) s0.c.addr, ()⟩, s0.c⟩ := by
    unfold chainDestroy
    rw [if_neg (by simp), if_neg (by simp [hq]), if_neg (by simp [hn]), if_neg (by simp [hb])]
  have := C47_destroy_partial (s := ⟨⟨m', R, ()⟩, s0.c⟩) (d := (10489856, 4194304)) (p := 11000000) h'.inv hn (fun d hd _ => by
    simp only [List.mem_cons, List.not_mem_nil, or_false] at hd
    simp only [hb]
    rcases hd with rfl | rfl <;> simp) e (by simp) (by simp) (by omega)
  rw [if_neg (by show readLE m' _ 8 ≠ s0.c.addr; rw [ho, ha]; simp)] at this
  refine ⟨⟨⟨m', R, ()⟩, s0.c⟩, ⟨⟨m', regionDelChain m' R (s0.c.base / TB1) s0.c.addr, ()⟩, s0.c⟩, _, h', by simp, e, ?_, this⟩
  show readLE m' _ 8 ≠ s0.c.addr
  rw [ho, ha]; simp

/-- C47 is false of the code: `sctk_alloc_chain_destroy` cleans only the region of 1 TB of the base address. A chain over
the 4 MB that start 2 MB below the address 2^40, without live block, is destroyed without error; its addresses above
2^40 are still found in its bloc, whose field `chain` is the address of the destroyed chain. -/
theorem C47_refuted : ∃ s s' : CS Unit, Reach S0 Config.default 4096 s [] [(1099509530624, 2 * MB2)] ∧
    s.c.noRegion = false ∧ chainDestroy s false = .ok s' ∧
    readLE s'.w.mem (1099509530624 + 16) 8 = s.c.addr ∧
    ∃ R', regionGetMacroBloc s'.w.mem s'.w.regs 1099511631872 = .ok (R', 1099509530624) := by
  obtain ⟨s, R, hm, I, ha, hb, hq, hn, ho⟩ := start_at 1099509530624 (by omega) (by omega) (by omega)
  have hc := C07_can_destroy default_factor R hm (by simp)
  have e : chainDestroy s false = .ok { s with w := { s.w with regs := regionDelChain s.w.mem s.w.regs 0 s.c.addr } } := by
    unfold chainDestroy
    rw [if_neg (by simp [hc]), if_neg (by rw [hq]; simp), if_neg (by rw [hn]; simp), if_neg (by rw [hb]; omega), hb]
  refine ⟨s, _, R, hn, e, by rw [ha]; exact ho, ?_⟩
  have hset := I.set _ (List.mem_singleton.2 rfl) 524288 (by simp) (by simp)
  have hent : (regionDelChain s.w.mem s.w.regs 0 s.c.addr).ent 524288 = 1099509530624 := by
    unfold regionDelChain
    split
    · simp only
      rw [if_neg (fun g => absurd g.1 (by omega))]
      exact hset
    · exact hset
  have hok : (regionDelChain s.w.mem s.w.regs 0 s.c.addr).OK := by
    intro k hk
    unfold regionDelChain at hk ⊢
    split at hk
    · rename_i h1
      rw [if_pos h1]
      have := I.ok k hk
      simp only
      split
      · rfl
      · exact this
    · rename_i h1
      rw [if_neg h1]
      exact I.ok k hk
  obtain ⟨R', q, e1, _, _, hq1⟩ := regionGetMacroBloc_ent (m := s.w.mem) (p := 1099511631872) hok (by omega)
  refine ⟨R', ?_⟩
  simp only
  rw [e1, hq1, show 1099511631872 / MB2 = 524288 by omega, hent, if_neg (by omega)]

end MpcAlloc
