import Verif.Region

/-
Properties C19 and C20: the table of regions.
-/

namespace MpcAlloc

/-- The histories of the region table: macro blocs `(address, size)` are registered and unregistered, the blocs of a
chain that are all in one region are forgotten, the table is read, and the program writes anywhere except in the size fields of the registered blocs. The third argument is the
list of registered blocs. A bloc may be registered when it is disjoint from the registered ones, its size is a
non-zero multiple of 2 MB, and it lies below address 2^48. -/
inductive RegHist : Mem → Regions → List (Nat × Nat) → Prop
  | start (m : Mem) : RegHist m Regions.empty []
  | write {m m' R B} : RegHist m R B → (∀ b ∈ B, hSize m' b.1 = hSize m b.1) → RegHist m' R B
  | reg {m m' R R' B b sz ch} : RegHist m R B → 0 < b → 0 < sz → sz % MB2 = 0 → b + sz ≤ 281474976710656 →
      (∀ d ∈ B, b + sz ≤ d.1 ∨ d.1 + d.2 ≤ b) → hSize m b = sz → regionSetEntry m R ch b = .ok (m', R') →
      RegHist m' R' ((b, sz) :: B)
  | unreg {m R R' B b sz} : RegHist m R B → (b, sz) ∈ B → regionUnsetEntry m R b = .ok R' →
      RegHist m R' (B.filter (fun d => d.1 ≠ b))
  | del {m R B id ch} : RegHist m R B →
      (∀ d ∈ B, readLE m (d.1 + 16) 8 = ch → d.1 / TB1 = id ∧ (d.1 + d.2 - 1) / TB1 = id) →
      RegHist m (regionDelChain m R id ch) (B.filter (fun d => readLE m (d.1 + 16) 8 ≠ ch))
  | look {m R R' B p q} : RegHist m R B → regionGetMacroBloc m R p = .ok (R', q) → RegHist m R' B

/-- What is true of every table reached by a history. -/
structure RegInv (m : Mem) (R : Regions) (B : List (Nat × Nat)) : Prop where
  ok : R.OK
  bloc : ∀ d ∈ B, 0 < d.1 ∧ 0 < d.2 ∧ d.2 % MB2 = 0 ∧ d.1 + d.2 ≤ 281474976710656 ∧ hSize m d.1 = d.2
  disj : ∀ d ∈ B, ∀ e ∈ B, d = e ∨ d.1 + d.2 ≤ e.1 ∨ e.1 + e.2 ≤ d.1
  set : ∀ d ∈ B, ∀ k, d.1 / MB2 ≤ k → k < d.1 / MB2 + d.2 / MB2 → R.ent k = d.1
  own : ∀ k, R.ent k ≠ 0 → ∃ d ∈ B, R.ent k = d.1 ∧ d.1 / MB2 ≤ k ∧ k < d.1 / MB2 + d.2 / MB2

theorem div_ceil {sz : Nat} (h : sz % MB2 = 0) : (sz + MB2 - 1) / MB2 = sz / MB2 := by omega

/-- A bloc disjoint from the registered ones can be registered. -/
theorem RegInv.reg {m : Mem} {R : Regions} {B : List (Nat × Nat)} (I : RegInv m R B) {b sz : Nat} (ch : Nat)
    (h0 : 0 < b) (h1 : 0 < sz) (h2 : sz % MB2 = 0) (h3 : b + sz ≤ 281474976710656)
    (h4 : ∀ d ∈ B, b + sz ≤ d.1 ∨ d.1 + d.2 ≤ b) (h5 : hSize m b = sz) :
    ∃ m' R', regionSetEntry m R ch b = .ok (m', R') ∧ RegInv m' R' ((b, sz) :: B) := by
  obtain ⟨R', e, hok, hent⟩ := regionSetEntry_ok (chain := ch) I.ok h5 h3 (by
    intro k hk1 hk2
    by_contra hne
    obtain ⟨d, hd, _, hk3, hk4⟩ := I.own k hne
    rw [div_ceil h2] at hk2
    have := I.bloc d hd
    have := h4 d hd
    omega)
  rw [div_ceil h2] at hent
  have hsz : ∀ d ∈ B, hSize (writeLE m (b + 16) 8 ch) d.1 = d.2 := by
    intro d hd
    have := h4 d hd
    have h := I.bloc d hd
    unfold hSize at *
    rw [readLE_writeLE_other (by omega)]
    exact h.2.2.2.2
  refine ⟨_, R', e, hok, ?_, ?_, ?_, ?_⟩
  · intro d hd
    rcases List.mem_cons.1 hd with rfl | hd
    · refine ⟨h0, h1, h2, h3, ?_⟩
      unfold hSize at *
      rw [readLE_writeLE_other (by omega)]; exact h5
    · have h := I.bloc d hd
      exact ⟨h.1, h.2.1, h.2.2.1, h.2.2.2.1, hsz d hd⟩
  · intro d hd f hf
    rcases List.mem_cons.1 hd with rfl | hd <;> rcases List.mem_cons.1 hf with rfl | hf
    · exact Or.inl rfl
    · exact Or.inr (h4 f hf)
    · exact Or.inr (h4 d hd).symm
    · exact I.disj d hd f hf
  · intro d hd k hk1 hk2
    rw [hent]; unfold entSet
    rcases List.mem_cons.1 hd with rfl | hd
    · rw [if_pos ⟨hk1, hk2⟩]
    · have := h4 d hd
      have := I.bloc d hd
      rw [if_neg (by omega)]
      exact I.set d hd k hk1 hk2
  · intro k hk
    rw [hent] at hk ⊢; unfold entSet at hk ⊢
    split at hk
    · rename_i hc
      exact ⟨(b, sz), List.mem_cons_self, by rw [if_pos hc], hc.1, hc.2⟩
    · rename_i hc
      obtain ⟨d, hd, h⟩ := I.own k hk
      exact ⟨d, List.mem_cons_of_mem _ hd, by rw [if_neg hc]; exact h.1, h.2⟩

/-- A registered bloc can be unregistered. -/
theorem RegInv.unreg {m : Mem} {R : Regions} {B : List (Nat × Nat)} (I : RegInv m R B) {b sz : Nat}
    (hb : (b, sz) ∈ B) :
    ∃ R', regionUnsetEntry m R b = .ok R' ∧ RegInv m R' (B.filter (fun d => d.1 ≠ b)) := by
  obtain ⟨g0, g1, g2, g3, g4⟩ := I.bloc _ hb
  simp only at g0 g1 g2 g3 g4
  obtain ⟨R', e, hok, hent⟩ := regionUnsetEntry_ok (bloc := b) (sz := sz) I.ok g4 g3
  rw [div_ceil g2] at hent
  have mem : ∀ d, d ∈ B.filter (fun d => d.1 ≠ b) ↔ d ∈ B ∧ d.1 ≠ b := by
    intro d; rw [List.mem_filter]; simp
  refine ⟨R', e, hok, fun d hd => I.bloc d ((mem d).1 hd).1,
    fun d hd f hf => I.disj d ((mem d).1 hd).1 f ((mem f).1 hf).1, ?_, ?_⟩
  · intro d hd k hk1 hk2
    obtain ⟨hd, hne⟩ := (mem d).1 hd
    have := I.set d hd k hk1 hk2
    rw [hent]; unfold entUnset
    rw [if_neg (by omega)]; exact this
  · intro k hk
    rw [hent] at hk ⊢; unfold entUnset at hk ⊢
    split at hk
    · exact absurd rfl hk
    · rename_i hc
      rw [if_neg hc]
      obtain ⟨d, hd, h1, h2, h3⟩ := I.own k hk
      refine ⟨d, (mem d).2 ⟨hd, fun hdb => ?_⟩, h1, h2, h3⟩
      have := I.disj d hd (b, sz) hb
      have hd2 := I.bloc d hd
      have : d = (b, sz) := by
        rcases this with h | h | h
        · exact h
        · simp only at h; omega
        · simp only at h; omega
      subst this
      exact hc ⟨h2, h3, h1⟩

/-- The blocs of a chain that are all in one region can be forgotten. -/
theorem RegInv.del {m : Mem} {R : Regions} {B : List (Nat × Nat)} (I : RegInv m R B) {id ch : Nat}
    (h : ∀ d ∈ B, readLE m (d.1 + 16) 8 = ch → d.1 / TB1 = id ∧ (d.1 + d.2 - 1) / TB1 = id) :
    RegInv m (regionDelChain m R id ch) (B.filter (fun d => readLE m (d.1 + 16) 8 ≠ ch)) := by
  have mem : ∀ d, d ∈ B.filter (fun d => readLE m (d.1 + 16) 8 ≠ ch) ↔ d ∈ B ∧ readLE m (d.1 + 16) 8 ≠ ch := by
    intro d; rw [List.mem_filter]; simp
  have hent : ∀ k, (regionDelChain m R id ch).ent k =
      if R.ent k ≠ 0 ∧ readLE m (R.ent k + 16) 8 = ch then 0 else R.ent k := by
    intro k
    have hk : R.ent k ≠ 0 → readLE m (R.ent k + 16) 8 = ch → k / 524288 = id ∧ R.mapped id = true := by
      intro h1 h2
      obtain ⟨d, hd, e, h3, h4⟩ := I.own k h1
      rw [e] at h2
      have h5 := h d hd h2
      have h6 := I.bloc d hd
      have h7 : k / 524288 = id := by omega
      refine ⟨h7, ?_⟩
      by_contra hc
      have := I.ok k (by rw [h7]; simpa using hc)
      omega
    unfold regionDelChain
    by_cases hc : R.ent k ≠ 0 ∧ readLE m (R.ent k + 16) 8 = ch
    · obtain ⟨h1, h2⟩ := hk hc.1 hc.2
      rw [if_pos h2, if_pos hc]
      exact if_pos ⟨h1, hc⟩
    · rw [if_neg hc]
      split
      · exact if_neg (fun g => hc g.2)
      · rfl
  refine ⟨?_, fun d hd => I.bloc d ((mem d).1 hd).1, fun d hd f hf => I.disj d ((mem d).1 hd).1 f ((mem f).1 hf).1, ?_, ?_⟩
  · intro k hk
    rw [hent]
    have : (regionDelChain m R id ch).mapped = R.mapped := by unfold regionDelChain; split <;> rfl
    rw [this] at hk
    have := I.ok k hk
    rw [if_neg (by rw [this]; simp)]
    exact this
  · intro d hd k hk1 hk2
    obtain ⟨hd, hne⟩ := (mem d).1 hd
    have := I.set d hd k hk1 hk2
    rw [hent, this, if_neg (fun g => hne g.2)]
  · intro k hk
    rw [hent] at hk ⊢
    split at hk
    · exact absurd rfl hk
    · rename_i hc
      rw [if_neg hc]
      obtain ⟨d, hd, h1, h2, h3⟩ := I.own k hk
      exact ⟨d, (mem d).2 ⟨hd, fun g => hc ⟨hk, by rw [h1]; exact g⟩⟩, h1, h2, h3⟩

/-- The lookup finishes and leaves the entries as they are. -/
theorem regionGetMacroBloc_ent {m : Mem} {R : Regions} (h : R.OK) {p : Nat} (hp : p < 281474976710656) :
    ∃ R' q, regionGetMacroBloc m R p = .ok (R', q) ∧ R'.OK ∧ R'.ent = R.ent ∧
      q = (if (R.ent (p / MB2) = 0 ∨ R.ent (p / MB2) > p) ∧ p > MB2 then
            (if p > R.ent (p / MB2 - 1) ∧ p < add64 (R.ent (p / MB2 - 1)) (hSize m (R.ent (p / MB2 - 1))) then
              R.ent (p / MB2 - 1) else 0)
          else R.ent (p / MB2)) := by
  obtain ⟨R1, e1, ok1, ent1, _⟩ := regionGetEntry_ok h hp
  unfold regionGetMacroBloc
  simp only [e1, Outcome.ok_bind, ent1]
  by_cases hc : (R.ent (p / MB2) = 0 ∨ R.ent (p / MB2) > p) ∧ p > MB2
  · obtain ⟨R2, e2, ok2, ent2, _⟩ := regionGetEntry_ok ok1 (a := p - MB2) (by omega)
    have hd : (p - MB2) / MB2 = p / MB2 - 1 := by omega
    rw [hd] at e2
    rw [if_pos hc, if_pos hc, sub64_eq (by omega) (by omega), e2]
    simp only [Outcome.ok_bind, ent2, ent1, Outcome.pure_eq]
    by_cases h0 : R.ent (p / MB2 - 1) = 0
    · refine ⟨R2, 0, by rw [if_pos h0], ok2, by rw [ent2, ent1], ?_⟩
      rw [h0]; split <;> rfl
    · by_cases h1 : p > R.ent (p / MB2 - 1) ∧ p < add64 (R.ent (p / MB2 - 1)) (hSize m (R.ent (p / MB2 - 1)))
      · exact ⟨R2, _, by rw [if_neg h0, if_pos h1], ok2, by rw [ent2, ent1], by rw [if_pos h1]⟩
      · exact ⟨R2, _, by rw [if_neg h0, if_neg h1], ok2, by rw [ent2, ent1], by rw [if_neg h1]⟩
  · rw [if_neg hc, if_neg hc]
    exact ⟨R1, _, rfl, ok1, ent1, rfl⟩

theorem RegHist.inv {m : Mem} {R : Regions} {B : List (Nat × Nat)} (h : RegHist m R B) : RegInv m R B := by
  induction h with
  | start m => exact ⟨Regions.empty_ok, by simp, by simp, by simp, fun k hk => absurd rfl hk⟩
  | write _ hw I =>
    refine ⟨I.ok, fun d hd => ?_, I.disj, I.set, I.own⟩
    have h := I.bloc d hd
    exact ⟨h.1, h.2.1, h.2.2.1, h.2.2.2.1, by rw [hw d hd]; exact h.2.2.2.2⟩
  | reg _ h0 h1 h2 h3 h4 h5 e I =>
    obtain ⟨m', R', e', I'⟩ := I.reg _ h0 h1 h2 h3 h4 h5
    rw [e] at e'
    obtain ⟨rfl, rfl⟩ := Prod.mk.inj (Outcome.ok.inj e')
    exact I'
  | unreg _ hb e I =>
    obtain ⟨R', e', I'⟩ := I.unreg hb
    rw [e] at e'
    cases Outcome.ok.inj e'
    exact I'
  | del _ h I => exact I.del h
  | @look m R R' B p q _ e I =>
    have hp : p < 281474976710656 := by
      by_contra hc
      unfold regionGetMacroBloc regionGetEntry at e
      simp only at e
      rw [if_pos (by omega)] at e
      cases e
    obtain ⟨R1, q1, e1, ok1, ent1, _⟩ := regionGetMacroBloc_ent (m := m) I.ok hp
    rw [e] at e1
    obtain ⟨rfl, rfl⟩ := Prod.mk.inj (Outcome.ok.inj e1)
    exact ⟨ok1, I.bloc, I.disj, fun d hd k h1 h2 => by rw [ent1]; exact I.set d hd k h1 h2,
      fun k hk => by rw [ent1] at hk ⊢; exact I.own k hk⟩

/-- Lookup in a table that satisfies the invariant. -/
theorem RegInv.lookups {m : Mem} {R : Regions} {B : List (Nat × Nat)} (I : RegInv m R B) {p : Nat}
    (h1 : MB2 < p) (h2 : p < 281474976710656) :
    (∀ d ∈ B, d.1 ≤ p → p < d.1 + d.2 → ∃ R', regionGetMacroBloc m R p = .ok (R', d.1)) ∧
    ((∀ d ∈ B, ¬ (d.1 ≤ p ∧ p < d.1 + d.2)) → ∃ R', regionGetMacroBloc m R p = .ok (R', 0)) := by
  obtain ⟨R', q, e, _, _, hq⟩ := regionGetMacroBloc_ent (m := m) I.ok h2
  rw [e]
  constructor
  · intro d hd hp1 hp2
    refine ⟨R', ?_⟩
    obtain ⟨g0, g1, g2, g3, g4⟩ := I.bloc d hd
    congr 2
    rw [hq]
    by_cases hin : p / MB2 < d.1 / MB2 + d.2 / MB2
    · have := I.set d hd (p / MB2) (by omega) hin
      rw [if_neg (by omega)]; exact this
    · have hprev := I.set d hd (p / MB2 - 1) (by omega) (by omega)
      rw [if_pos, hprev, g4, add64_eq (by omega), if_pos (by omega)]
      refine ⟨?_, h1⟩
      by_contra hc
      obtain ⟨f, hf, f1, f2, f3⟩ := I.own (p / MB2) (by omega)
      have gf := I.bloc f hf
      rcases I.disj d hd f hf with rfl | hdf | hdf <;> omega
  · intro hout
    refine ⟨R', ?_⟩
    congr 2
    rw [hq]
    split
    · rename_i hc
      split
      · rename_i hc2
        by_contra hne
        obtain ⟨f, hf, f1, f2, f3⟩ := I.own _ hne
        have gf := I.bloc f hf
        rw [f1, gf.2.2.2.2, add64_eq (by omega)] at hc2
        exact hout f hf ⟨by omega, by omega⟩
      · rfl
    · rename_i hc
      by_contra hne
      obtain ⟨f, hf, f1, f2, f3⟩ := I.own _ hne
      have gf := I.bloc f hf
      exact hout f hf ⟨by omega, by omega⟩

/-- C19: after any history, the lookup of an address above 2 MB inside a registered bloc finds that bloc, and the
lookup of an address above 2 MB outside of all of them finds nothing. Missing: the first 2 MB of the address space,
where the property is false of the code (`C19_refuted`), and addresses from 2^48, which no user process has. -/
theorem C19_lookup_partial {m : Mem} {R : Regions} {B : List (Nat × Nat)} (h : RegHist m R B) {p : Nat}
    (h1 : MB2 < p) (h2 : p < 281474976710656) :
    (∀ d ∈ B, d.1 ≤ p → p < d.1 + d.2 → ∃ R', regionGetMacroBloc m R p = .ok (R', d.1)) ∧
    ((∀ d ∈ B, ¬ (d.1 ≤ p ∧ p < d.1 + d.2)) → ∃ R', regionGetMacroBloc m R p = .ok (R', 0)) :=
  h.inv.lookups h1 h2

/-- C20: registering a bloc disjoint from the registered ones does not abort, and (un)registering a bloc does not
change the answer of the lookup for any address above 2 MB outside of that bloc. -/
theorem C20_registration_partial {m : Mem} {R : Regions} {B : List (Nat × Nat)} (h : RegHist m R B) :
    (∀ b sz ch, 0 < b → 0 < sz → sz % MB2 = 0 → b + sz ≤ 281474976710656 →
      (∀ d ∈ B, b + sz ≤ d.1 ∨ d.1 + d.2 ≤ b) → hSize m b = sz →
      ∃ m' R', regionSetEntry m R ch b = .ok (m', R') ∧
        ∀ p, MB2 < p → p < 281474976710656 → ¬ (b ≤ p ∧ p < b + sz) →
          (do let (_, q) ← regionGetMacroBloc m' R' p; return q) =
            (do let (_, q) ← regionGetMacroBloc m R p; return q)) ∧
    (∀ b sz, (b, sz) ∈ B → ∃ R', regionUnsetEntry m R b = .ok R' ∧
        ∀ p, MB2 < p → p < 281474976710656 → ¬ (b ≤ p ∧ p < b + sz) →
          (do let (_, q) ← regionGetMacroBloc m R' p; return q) =
            (do let (_, q) ← regionGetMacroBloc m R p; return q)) := by
  have I := h.inv
  constructor
  · intro b sz ch h0 h1 h2 h3 h4 h5
    obtain ⟨m', R', e, _⟩ := I.reg ch h0 h1 h2 h3 h4 h5
    refine ⟨m', R', e, fun p hp1 hp2 hout => ?_⟩
    have h' := RegHist.reg h h0 h1 h2 h3 h4 h5 e
    by_cases hin : ∃ d ∈ B, d.1 ≤ p ∧ p < d.1 + d.2
    · obtain ⟨d, hd, hd1, hd2⟩ := hin
      obtain ⟨R1, e1⟩ := (C19_lookup_partial h hp1 hp2).1 d hd hd1 hd2
      obtain ⟨R2, e2⟩ := (C19_lookup_partial h' hp1 hp2).1 d (List.mem_cons_of_mem _ hd) hd1 hd2
      rw [e1, e2]; rfl
    · obtain ⟨R1, e1⟩ := (C19_lookup_partial h hp1 hp2).2 (fun d hd hc => hin ⟨d, hd, hc⟩)
      obtain ⟨R2, e2⟩ := (C19_lookup_partial h' hp1 hp2).2 (fun d hd hc => by
        rcases List.mem_cons.1 hd with rfl | hd
        · exact hout hc
        · exact hin ⟨d, hd, hc⟩)
      rw [e1, e2]; rfl
  · intro b sz hb
    obtain ⟨R', e, _⟩ := I.unreg hb
    refine ⟨R', e, fun p hp1 hp2 hout => ?_⟩
    have h' := RegHist.unreg h hb e
    by_cases hin : ∃ d ∈ B, d.1 ≤ p ∧ p < d.1 + d.2
    · obtain ⟨d, hd, hd1, hd2⟩ := hin
      have hne : d.1 ≠ b := by
        intro hdb
        have gb := I.bloc _ hb
        have gd := I.bloc _ hd
        rcases I.disj d hd (b, sz) hb with rfl | hh | hh
        · exact hout ⟨hd1, hd2⟩
        · simp only at hh gb; omega
        · simp only at hh gb; omega
      obtain ⟨R1, e1⟩ := (C19_lookup_partial h hp1 hp2).1 d hd hd1 hd2
      obtain ⟨R2, e2⟩ := (C19_lookup_partial h' hp1 hp2).1 d (by rw [List.mem_filter]; simp [hd, hne]) hd1 hd2
      rw [e1, e2]; rfl
    · obtain ⟨R1, e1⟩ := (C19_lookup_partial h hp1 hp2).2 (fun d hd hc => hin ⟨d, hd, hc⟩)
      obtain ⟨R2, e2⟩ := (C19_lookup_partial h' hp1 hp2).2 (fun d hd hc => by
        rw [List.mem_filter] at hd
        exact hin ⟨d, hd.1, hc⟩)
      rw [e1, e2]; rfl

/-- A memory with the header of a bloc of `s` bytes at `a`. -/
theorem hSize_setup (m : Mem) (a : Nat) {s : Nat} (h : s < W56) : hSize (setupLargeHeader m a s 0) a = s := by
  rw [(setupLargeHeader_hdr m a s 0).size, Nat.mod_eq_of_lt h]

/-- Two neighbouring blocs, of 4 MB and 2 MB, that share an entry: both can be registered. -/
theorem two_blocs : ∃ m R, RegHist m R [(14684160, 2097152), (10489856, 4194304)] := by
  let m1 := setupLargeHeader (setupLargeHeader (fun _ => 0) 10489856 4194304 0) 14684160 2097152 0
  have s1 : hSize m1 10489856 = 4194304 := by
    have := hSize_setup (fun _ => 0) 10489856 (s := 4194304) (by omega)
    rw [← this]
    exact readLE_congr (fun x h1 h2 => setupLargeHeader_other (by omega))
  have s2 : hSize m1 14684160 = 2097152 := hSize_setup _ _ (by omega)
  have h0 := RegHist.start m1
  obtain ⟨m2, R2, e2, I2⟩ := h0.inv.reg (b := 10489856) (sz := 4194304) 1 (by omega) (by omega) (by omega) (by omega)
    (by simp) s1
  have h2 := RegHist.reg h0 (by omega) (by omega) (by omega) (by omega) (by simp) s1 e2
  have s3 : hSize m2 14684160 = 2097152 := by
    have hm : m2 = writeLE m1 (10489856 + 16) 8 1 := by
      unfold regionSetEntry at e2
      obtain ⟨R', _, e⟩ := Outcome.bind_eq_ok e2
      exact (Prod.mk.inj (Outcome.ok.inj e)).1.symm
    rw [hm, ← s2]
    exact readLE_writeLE_other (by omega)
  have hdis : ∀ d ∈ [((10489856 : Nat), (4194304 : Nat))],
      14684160 + 2097152 ≤ d.1 ∨ d.1 + d.2 ≤ 14684160 := by
    intro d hd
    rw [List.mem_singleton] at hd; subst hd
    right; simp only; omega
  obtain ⟨m4, R4, e4, _⟩ := h2.inv.reg (b := 14684160) (sz := 2097152) 2 (by omega) (by omega) (by omega) (by omega)
    hdis s3
  exact ⟨m4, R4, RegHist.reg h2 (by omega) (by omega) (by omega) (by omega) hdis s3 e4⟩

/-- The hypotheses of C19 and C20 are met: the last byte of the first bloc has the entry of the second one. -/
example : ∃ m R, RegHist m R [(14684160, 2097152), (10489856, 4194304)] ∧
    ∃ R', regionGetMacroBloc m R 14684159 = .ok (R', 10489856) := by
  obtain ⟨m, R, h⟩ := two_blocs
  exact ⟨m, R, h, (C19_lookup_partial h (by omega) (by omega)).1 (10489856, 4194304) (by simp) (by simp) (by simp)⟩

/-- C19 is false in the first 2 MB: with one bloc of 2 MB at 8192, the address 4096 outside of the bloc is said to
be in it, and the address 2 MB, inside of the bloc, is not found. -/
theorem C19_refuted : ∃ m R, RegHist m R [(8192, 2097152)] ∧
    (∃ R', regionGetMacroBloc m R 4096 = .ok (R', 8192)) ∧
    (∃ R', regionGetMacroBloc m R 2097152 = .ok (R', 0)) := by
  have s1 := hSize_setup (fun _ => 0) 8192 (s := 2097152) (by omega)
  have h0 := RegHist.start (setupLargeHeader (fun _ => 0) 8192 2097152 0)
  obtain ⟨m2, R2, e2, I2⟩ := h0.inv.reg (b := 8192) (sz := 2097152) 1 (by omega) (by omega) (by omega) (by omega)
    (by simp) s1
  have h2 := RegHist.reg h0 (by omega) (by omega) (by omega) (by omega) (by simp) s1 e2
  refine ⟨m2, R2, h2, ?_, ?_⟩
  · obtain ⟨R', q, e, _, _, hq⟩ := regionGetMacroBloc_ent (m := m2) I2.ok (p := 4096) (by omega)
    have := I2.set (8192, 2097152) (by simp) 0 (by simp) (by simp)
    rw [if_neg (by omega), show 4096 / MB2 = 0 by omega, this] at hq
    exact ⟨R', by rw [e, hq]⟩
  · obtain ⟨R', q, e, _, _, hq⟩ := regionGetMacroBloc_ent (m := m2) I2.ok (p := 2097152) (by omega)
    have : R2.ent 1 = 0 := by
      by_contra hc
      obtain ⟨d, hd, _, h4, h5⟩ := I2.own 1 hc
      rw [List.mem_singleton] at hd; subst hd
      simp only at h5; omega
    rw [if_neg (by omega), show 2097152 / MB2 = 1 by omega, this] at hq
    exact ⟨R', by rw [e, hq]⟩

/-- C20 is false for the address 2 MB: it is inside a registered bloc at 4096, and registering the next bloc changes
its answer. -/
theorem C20_refuted : ∃ m R m' R', RegHist m R [(4096, 2097152)] ∧
    RegHist m' R' [(2105344, 2097152), (4096, 2097152)] ∧ regionSetEntry m R 2 2105344 = .ok (m', R') ∧
    (∃ R1, regionGetMacroBloc m R 2097152 = .ok (R1, 0)) ∧
    (∃ R1, regionGetMacroBloc m' R' 2097152 = .ok (R1, 2105344)) := by
  let m1 := setupLargeHeader (setupLargeHeader (fun _ => 0) 4096 2097152 0) 2105344 2097152 0
  have s1 : hSize m1 4096 = 2097152 := by
    have := hSize_setup (fun _ => 0) 4096 (s := 2097152) (by omega)
    rw [← this]
    exact readLE_congr (fun x h1 h2 => setupLargeHeader_other (by omega))
  have s2 : hSize m1 2105344 = 2097152 := hSize_setup _ _ (by omega)
  have h0 := RegHist.start m1
  obtain ⟨m2, R2, e2, I2⟩ := h0.inv.reg (b := 4096) (sz := 2097152) 1 (by omega) (by omega) (by omega) (by omega)
    (by simp) s1
  have h2 := RegHist.reg h0 (by omega) (by omega) (by omega) (by omega) (by simp) s1 e2
  have s3 : hSize m2 2105344 = 2097152 := by
    have hm : m2 = writeLE m1 (4096 + 16) 8 1 := by
      unfold regionSetEntry at e2
      obtain ⟨R', _, e⟩ := Outcome.bind_eq_ok e2
      exact (Prod.mk.inj (Outcome.ok.inj e)).1.symm
    rw [hm, ← s2]
    exact readLE_writeLE_other (by omega)
  have hdis : ∀ d ∈ [((4096 : Nat), (2097152 : Nat))], 2105344 + 2097152 ≤ d.1 ∨ d.1 + d.2 ≤ 2105344 := by
    intro d hd
    rw [List.mem_singleton] at hd; subst hd
    right; simp only; omega
  obtain ⟨m4, R4, e4, I4⟩ := h2.inv.reg (b := 2105344) (sz := 2097152) 2 (by omega) (by omega) (by omega) (by omega)
    hdis s3
  have h4 := RegHist.reg h2 (by omega) (by omega) (by omega) (by omega) hdis s3 e4
  refine ⟨m2, R2, m4, R4, h2, h4, e4, ?_, ?_⟩
  · obtain ⟨R', q, e, _, _, hq⟩ := regionGetMacroBloc_ent (m := m2) I2.ok (p := 2097152) (by omega)
    have : R2.ent 1 = 0 := by
      by_contra hc
      obtain ⟨d, hd, _, h4, h5⟩ := I2.own 1 hc
      rw [List.mem_singleton] at hd; subst hd
      simp only at h5; omega
    rw [if_neg (by omega), show 2097152 / MB2 = 1 by omega, this] at hq
    exact ⟨R', by rw [e, hq]⟩
  · obtain ⟨R', q, e, _, _, hq⟩ := regionGetMacroBloc_ent (m := m4) I4.ok (p := 2097152) (by omega)
    have := I4.set (2105344, 2097152) (by simp) 1 (by simp) (by simp)
    rw [if_neg (by omega), show 2097152 / MB2 = 1 by omega, this] at hq
    exact ⟨R', by rw [e, hq]⟩

end MpcAlloc
