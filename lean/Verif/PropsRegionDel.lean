import Verif.RegionDel

/-
C66: deleting regions. Headers of regions are given back exactly when they are deleted, deletion is refused while something
is registered, and only the registrations that are asked for disappear.
-/

namespace MpcAlloc.RegionDel

/-- Regions visited by the clean-up of a heap `[h, e)`: those of `h`, `h + 1 TB`, ... below `e`. -/
def Visited (h e id : Nat) : Prop := h / TB1 ≤ id ∧ h + (id - h / TB1) * TB1 < e

instance (h e id : Nat) : Decidable (Visited h e id) := inferInstanceAs (Decidable (_ ∧ _))

theorem cleanLoop_eq (own : Nat → Option Nat) (n : Nat) {s : S} (I : Inv s) {end_ cur : Nat} (e : 256 - cur / TB1 = n) :
    (cleanLoop own s end_ cur = .ub ∧ 281474976710656 < end_) ∨ ∃ s', cleanLoop own s end_ cur = .ok s' ∧ Inv s' ∧
      (∀ i, s'.glob i = if Visited cur end_ i then 0 else s.glob i) ∧
      ∀ k, look s' k = if Visited cur end_ (k / N) then 0 else look s k := by
  induction n generalizing s cur with
  | zero =>
    by_cases hc : cur < end_
    · left
      rw [cleanLoop, if_pos hc]
      unfold get
      rw [if_pos (by omega)]
      exact ⟨rfl, by omega⟩
    · right
      rw [cleanLoop, if_neg hc]
      refine ⟨s, rfl, I, fun i => ?_, fun k => ?_⟩ <;>
      · rw [if_neg (fun h => hc (by unfold Visited at h; omega))]
  | succ n ih =>
    have hid : cur / TB1 < 256 := by omega
    by_cases hc : cur < end_
    · rw [cleanLoop_turn own I hc hid]
      have ha : add64 cur TB1 = cur + TB1 := by unfold add64; exact Nat.mod_eq_of_lt (by omega)
      rw [ha]
      have hs1 : ∃ s1, s1 = (if s.glob (cur / TB1) = 0 then s else drop s (cur / TB1)) := ⟨_, rfl⟩
      obtain ⟨s1, e1⟩ := hs1
      rw [← e1]
      have h1 : Inv s1 ∧ (∀ i, s1.glob i = if i = cur / TB1 then 0 else s.glob i) ∧
          ∀ k, look s1 k = if k / N = cur / TB1 then 0 else look s k := by
        rw [e1]
        by_cases h0 : s.glob (cur / TB1) = 0
        · rw [if_pos h0]
          refine ⟨I, fun i => ?_, fun k => ?_⟩
          · split
            · rename_i hi; rw [hi, h0]
            · rfl
          · split
            · rename_i hk
              unfold look
              rw [hk, h0, I.zero]
            · rfl
        · rw [if_neg h0]
          exact ⟨I.drop _, fun i => rfl, look_drop I h0⟩
      obtain ⟨I1, hg, hl⟩ := h1
      have hv : ∀ i, Visited cur end_ i ↔ i = cur / TB1 ∨ Visited (cur + TB1) end_ i := by
        intro i
        unfold Visited
        constructor
        · rintro ⟨a, b⟩
          by_cases hi : i = cur / TB1
          · exact .inl hi
          · exact .inr ⟨by omega, by omega⟩
        · rintro (rfl | ⟨a, b⟩)
          · exact ⟨Nat.le_refl _, by omega⟩
          · exact ⟨by omega, by omega⟩
      rcases ih I1 (cur := cur + TB1) (by omega) with h | ⟨s', h2, h3, h4, h5⟩
      · exact .inl h
      · refine .inr ⟨s', h2, h3, fun i => ?_, fun k => ?_⟩
        · rw [h4 i, hg i]
          by_cases hi : i = cur / TB1
          · simp [hv, hi]
          · simp [hv, hi]
        · rw [h5 k, hl k]
          by_cases hi : k / N = cur / TB1
          · simp [hv, hi]
          · simp [hv, hi]
    · right
      rw [cleanLoop, if_neg hc]
      refine ⟨s, rfl, I, fun i => ?_, fun k => ?_⟩ <;>
      · rw [if_neg (fun h => hc (by unfold Visited at h; omega))]

theorem Inv.step {s s' : S} (I : Inv s) (st : Step s s') : Inv s' := by
  cases st with
  | setup hp e => exact (I.setup hp e).1
  | put hp e => exact put_shape I hp e
  | clear hp e => exact clear_shape I hp e
  | delChain hg e => exact (I.delChain (get_cases I hg).2.2 e).1
  | delete hg e => exact I.del hg e
  | delAll e =>
    rename_i own
    obtain ⟨s1, h1, h2, _⟩ := delAll_eq own _ I 0 rfl
    rw [h1] at e
    cases e
    exact h2
  | clean e =>
    rename_i own en h
    rcases cleanLoop_eq own _ I (end_ := en) (cur := h) rfl with ⟨h1, _⟩ | ⟨s1, h1, h2, _⟩
    · rw [h1] at e; cases e
    · rw [h1] at e; cases e; exact h2

theorem Reach.inv {s : S} (h : Reach s) : Inv s := by
  induction h with
  | start => exact Inv.start
  | step _ st ih => exact ih.step st

/-! ## Headers -/

/-- No header is lost and none is used after it was given back: after any history the mapped headers are the headers of the
regions that exist, and two regions never share one. -/
theorem C66_headers {s : S} (h : Reach s) :
    (∀ r, s.hdr r ≠ none ↔ ∃ i, i < 256 ∧ s.glob i = r ∧ r ≠ 0) ∧
    (∀ i j, s.glob i ≠ 0 → s.glob i = s.glob j → i = j) := by
  have I := h.inv
  refine ⟨fun r => ⟨fun hr => ?_, ?_⟩, I.inj⟩
  · obtain ⟨i, hi⟩ := I.held r hr
    have h0 : r ≠ 0 := fun h0 => hr (by rw [h0]; exact I.zero)
    exact ⟨i, Classical.byContradiction fun hh => h0 (by rw [← hi]; exact I.out i (by omega)), hi, h0⟩
  · rintro ⟨i, _, rfl, h0⟩
    exact I.live i h0

/-- Registering in a slot: the slot is set, the others keep their answer; a slot in use stops the program. -/
theorem C66_put {s : S} {a b : Nat} {p : Option Nat} (h : Reach s) (hp : ∀ q, p = some q → q ≠ 0 ∧ s.hdr q = none) :
    (∀ s', put s a b p = .ok s' → look s (a / MB2) = 0 ∧ ∀ k, look s' k = if k = a / MB2 then b else look s k) ∧
    (look s (a / MB2) ≠ 0 → a < 281474976710656 → put s a b p = .abort) := by
  have I := h.inv
  have key : ∀ s1 r i, getEntry s a p = .ok (s1, r, i) → ∃ f, Inv s1 ∧ s1.hdr r = some f ∧ r = s1.glob (a / TB1) ∧ i < N ∧
      a / TB1 * N + i = a / MB2 ∧ f i = look s (a / MB2) ∧ ∀ k, look s1 k = look s k := by
    intro s1 r i e1
    obtain ⟨I1, hr, hrg, hid, hi, hl⟩ := I.getEntry hp e1
    cases hf : s1.hdr r with
    | none => exact absurd hf hr
    | some f =>
      refine ⟨f, I1, rfl, hrg, by unfold N; omega, by unfold N; omega, ?_, hl⟩
      rw [← hl]
      unfold look
      have : a / MB2 / N = a / TB1 := by unfold N; omega
      rw [this, ← hrg, hf]
      have : a / MB2 % N = i := by unfold N; omega
      rw [this]
  constructor
  · intro s' e
    unfold put at e
    obtain ⟨⟨s1, r, i⟩, e1, e2⟩ := Outcome.bind_eq_ok e
    obtain ⟨v, e3, e4⟩ := Outcome.bind_eq_ok e2
    obtain ⟨f, I1, hf, hrg, hi, hk, hfi, hl⟩ := key s1 r i e1
    rw [rd_eq hf] at e3
    cases e3
    split at e4
    · cases e4
    · rename_i hz
      rw [wr_eq hf] at e4
      cases e4
      refine ⟨by rw [← hfi]; simpa using hz, fun k => ?_⟩
      subst hrg
      rw [look_write I1 hf hi k, hk, hl]
  · intro hne hlt
    have hid : ¬ a / TB1 ≥ 256 := by omega
    have h0 : s.glob (a / TB1) ≠ 0 := fun h0 => hne (by
      unfold look
      have : a / MB2 / N = a / TB1 := by unfold N; omega
      rw [this, h0, I.zero])
    have e1 : getEntry s a p = .ok (s, s.glob (a / TB1), a % TB1 / MB2) := by
      unfold getEntry get
      rw [if_neg hid, Outcome.ok_bind, if_neg h0, Outcome.ok_bind]
    obtain ⟨f, I1, hf, hrg, hi, hk, hfi, hl⟩ := key _ _ _ e1
    unfold put
    rw [e1, Outcome.ok_bind]
    simp only
    rw [rd_eq hf, Outcome.ok_bind, if_pos (by rw [hfi]; exact hne)]

/-- Removing a bloc from a slot: the slot is cleared if it holds this bloc, nothing else changes. -/
theorem C66_clear {s s' : S} {a b : Nat} {p : Option Nat} (h : Reach s) (hp : ∀ q, p = some q → q ≠ 0 ∧ s.hdr q = none)
    (e : clear s a b p = .ok s') : ∀ k, look s' k = if k = a / MB2 ∧ look s k = b then 0 else look s k := by
  have I := h.inv
  intro k
  unfold clear at e
  obtain ⟨⟨s1, r, i⟩, e1, e2⟩ := Outcome.bind_eq_ok e
  obtain ⟨v, e3, e4⟩ := Outcome.bind_eq_ok e2
  obtain ⟨I1, hr, hrg, hid, hi, hl⟩ := I.getEntry hp e1
  cases hf : s1.hdr r with
  | none => exact absurd hf hr
  | some f =>
    rw [rd_eq hf] at e3
    cases e3
    have hfi : look s (a / MB2) = f i := by
      rw [← hl]
      unfold look
      have h1 : a / MB2 / N = a / TB1 := by unfold N; omega
      have h2 : a / MB2 % N = i := by unfold N; omega
      rw [h1, ← hrg, hf, h2]
    split at e4
    · rename_i hv
      rw [wr_eq hf] at e4
      cases e4
      subst hrg
      rw [look_write I1 hf (by unfold N; omega) k, hl]
      have hk : a / TB1 * N + i = a / MB2 := by unfold N; omega
      rw [hk]
      by_cases hka : k = a / MB2
      · rw [if_pos hka, if_pos ⟨hka, by rw [hka, hfi, hv]⟩]
      · rw [if_neg hka, if_neg (fun hh => hka hh.1)]
    · rename_i hv
      cases e4
      rw [hl, if_neg]
      rintro ⟨hka, hb⟩
      rw [hka, hfi] at hb
      exact hv hb

/-! ## Deletions -/

/-- Removing one chain from a region: exactly the slots of that region whose bloc belongs to the chain are cleared. The owner
of every bloc registered in the region is read, so their memory must be mapped. -/
theorem C66_del_chain {own : Nat → Option Nat} {s : S} {a c : Nat} (h : Reach s) (ha : a < 281474976710656) (hc : c ≠ 0)
    (ho : ∀ k, k / N = a / TB1 → look s k ≠ 0 → own (look s k) ≠ none) :
    ∃ r s', get s a = .ok r ∧ delChain own s r c = .ok s' ∧ s'.glob = s.glob ∧
      ∀ k, look s' k = if k / N = a / TB1 ∧ look s k ≠ 0 ∧ own (look s k) = some c then 0 else look s k := by
  have I := h.inv
  obtain ⟨_, hg, hh⟩ := I.regionInit
  refine ⟨s.glob (a / TB1), ?_⟩
  have e0 : get s a = .ok (s.glob (a / TB1)) := by unfold get; rw [if_neg (by omega)]
  unfold delChain
  by_cases h0 : s.glob (a / TB1) = 0
  · rw [if_pos h0]
    refine ⟨s, e0, rfl, rfl, fun k => ?_⟩
    by_cases hk : k / N = a / TB1
    · have : look s k = 0 := by unfold look; rw [hk, h0, I.zero]
      simp [this]
    · simp [hk]
  · rw [if_neg h0]
    cases hf : s.hdr (s.glob (a / TB1)) with
    | none => exact absurd hf (I.live _ h0)
    | some f =>
      have hlk : ∀ j, j < N → look s (a / TB1 * N + j) = f j := by
        intro j hj
        unfold look
        have h1 : (a / TB1 * N + j) / N = a / TB1 := by unfold N at *; omega
        have h2 : (a / TB1 * N + j) % N = j := by unfold N at *; omega
        rw [h1, hf, h2]
      rw [delChainLoop_eq _ (f := f) (by rw [hh]; exact hf) (.inr fun j hj hne => by
        have h1 : (a / TB1 * N + j) / N = a / TB1 := by unfold N at *; omega
        have := ho (a / TB1 * N + j) h1
        rw [hlk j hj] at this
        exact this hne) 0 rfl]
      refine ⟨_, e0, rfl, hg, fun k => ?_⟩
      show (match (if (regionInit s).glob (k / N) = s.glob (a / TB1) then some _ else (regionInit s).hdr ((regionInit s).glob (k / N))) with
        | none => 0 | some f => f (k % N)) = _
      rw [hg, hh]
      by_cases hk : k / N = a / TB1
      · rw [hk, if_pos rfl]
        have hkN : k % N < N := Nat.mod_lt _ (by decide)
        have hv : look s k = f (k % N) := by
          rw [← hlk _ hkN]
          congr 1
          unfold N at *
          omega
        simp only [Nat.zero_le, true_and, hkN, if_true]
        unfold forget
        rw [if_neg hc, hv]
      · rw [if_neg (fun e => hk (I.inj _ _ h0 e.symm).symm), if_neg (fun e => hk e.1)]
        rfl

/-- A region in which something is registered is not deleted: nothing changes at all. -/
theorem C66_del_refused {s : S} {a k r : Nat} (h : Reach s) (hg : get s a = .ok r) (hk : k / N = a / TB1) (hne : look s k ≠ 0) :
    del s r = .ok s := by
  have I := h.inv
  obtain ⟨_, rfl, h0⟩ := get_cases I hg
  cases hf : s.hdr (s.glob (a / TB1)) with
  | none => exact absurd (by unfold look; rw [hk, hf]) hne
  | some f =>
    rw [del_eq I hf, if_neg]
    intro hz
    apply hne
    unfold look
    rw [hk, hf]
    exact hz _ (Nat.mod_lt _ (by decide))

/-- A region in which nothing is registered is deleted: its header, and no other, is given back; no answer of the table
changes; the other regions stay. -/
theorem C66_del {s : S} {a r : Nat} (h : Reach s) (hg : get s a = .ok r) (hz : ∀ k, k / N = a / TB1 → look s k = 0) :
    ∃ s', del s r = .ok s' ∧ exist s' a = .ok false ∧ (∀ x, s'.hdr x = if x = r then none else s.hdr x) ∧
      (∀ k, look s' k = look s k) ∧ ∀ b, b / TB1 ≠ a / TB1 → get s' b = get s b := by
  have I := h.inv
  obtain ⟨hid, rfl, h0⟩ := get_cases I hg
  cases hf : s.hdr (s.glob (a / TB1)) with
  | none =>
    have hr0 : s.glob (a / TB1) = 0 := h0.resolve_right (fun hh => hh hf)
    refine ⟨s, by unfold del; rw [if_pos hr0], ?_, fun x => ?_, fun _ => rfl, fun _ _ => rfl⟩
    · unfold exist get
      rw [if_neg (by omega), Outcome.ok_bind, hr0]
      rfl
    · split
      · rename_i hx; rw [hx, hf]
      · rfl
  | some f =>
    have hne : s.glob (a / TB1) ≠ 0 := fun h0 => by rw [h0, I.zero] at hf; cases hf
    refine ⟨drop s (a / TB1), ?_, ?_, fun _ => rfl, fun k => ?_, fun b hb => ?_⟩
    · rw [del_eq I hf, if_pos]
      intro j hj
      have h1 : (a / TB1 * N + j) / N = a / TB1 := by unfold N at *; omega
      have h2 : (a / TB1 * N + j) % N = j := by unfold N at *; omega
      have := hz _ h1
      unfold look at this
      rw [h1, hf, h2] at this
      exact this
    · unfold exist get
      rw [if_neg (by omega), Outcome.ok_bind]
      show Outcome.ok ((if a / TB1 = a / TB1 then 0 else s.glob (a / TB1)) != 0) = _
      rw [if_pos rfl]
      rfl
    · rw [look_drop I hne]
      split
      · rename_i hk; exact (hz k hk).symm
      · rfl
    · unfold get
      split
      · rfl
      · show Outcome.ok (if b / TB1 = a / TB1 then 0 else s.glob (b / TB1)) = _
        rw [if_neg hb]

/-- Deleting all: no header stays mapped, nothing stays registered, and no bloc is read (`own` is anything). -/
theorem C66_del_all (own : Nat → Option Nat) {s : S} (h : Reach s) :
    ∃ s', delAll own s 0 = .ok s' ∧ (∀ r, s'.hdr r = none) ∧ (∀ k, look s' k = 0) ∧
      ∀ a, a < 281474976710656 → exist s' a = .ok false := by
  obtain ⟨s', e, I', hg⟩ := delAll_eq own _ h.inv 0 rfl
  have hg : ∀ j, s'.glob j = 0 := fun j => by rw [hg j]; simp
  have hn : ∀ r, s'.hdr r = none := fun r => Classical.byContradiction fun hh => by
    obtain ⟨i, hi⟩ := I'.held r hh
    rw [hg i] at hi
    rw [← hi] at hh
    exact hh I'.zero
  refine ⟨s', e, hn, fun k => by unfold look; rw [hn], fun a ha => ?_⟩
  unfold exist get
  rw [if_neg (by omega), Outcome.ok_bind, hg]
  rfl

/-- The abstract table of the rest of the model (Region.lean). -/
def table (s : S) : Regions := ⟨fun i => decide (s.glob i ≠ 0), look s⟩

/-- The clean-up of a default source as used in DefaultSource.lean is this loop. -/
theorem C66_cleanup_model (own : Nat → Option Nat) {s s' : S} {end_ cur : Nat} (h : Reach s) (e : cleanLoop own s end_ cur = .ok s') :
    dCleanLoop (table s) end_ cur = .ok (table s') := by
  have key : ∀ n (s : S) cur, Inv s → 256 - cur / TB1 = n → cleanLoop own s end_ cur = .ok s' →
      dCleanLoop (table s) end_ cur = .ok (table s') := by
    intro n
    induction n with
    | zero =>
      intro s cur I hn e
      rw [cleanLoop] at e
      rw [dCleanLoop]
      split at e
      · unfold get at e
        rw [if_pos (by omega)] at e
        cases e
      · rename_i hc
        rw [if_neg hc]
        cases e
        rfl
    | succ n ih =>
      intro s cur I hn e
      by_cases hc : cur < end_
      · rw [cleanLoop_turn own I hc (by omega)] at e
        rw [dCleanLoop, if_pos hc, if_neg (by omega)]
        have ha : add64 cur TB1 = cur + TB1 := by unfold add64; exact Nat.mod_eq_of_lt (by omega)
        have ht : regionDel (table s) (cur / TB1) = table (if s.glob (cur / TB1) = 0 then s else drop s (cur / TB1)) := by
          unfold regionDel
          by_cases h0 : s.glob (cur / TB1) = 0
          · rw [if_pos h0]
            simp [table, h0]
          · rw [if_neg h0, if_pos (by simp [table, h0])]
            have hN : N = 524288 := rfl
            have h1 : (table (drop s (cur / TB1))).mapped = fun i => if i = cur / TB1 then false else (table s).mapped i := by
              funext i
              show decide ((if i = cur / TB1 then 0 else s.glob i) ≠ 0) = (if i = cur / TB1 then false else decide (s.glob i ≠ 0))
              by_cases hi : i = cur / TB1 <;> simp [hi]
            have h2 : (table (drop s (cur / TB1))).ent = fun k => if k / 524288 = cur / TB1 then 0 else (table s).ent k := by
              funext k
              rw [← hN]
              exact look_drop I h0 k
            rw [← h1, ← h2]
        rw [ht]
        refine ih _ _ ?_ ?_ e
        · split
          · exact I
          · exact I.drop _
        · rw [ha]; omega
      · rw [cleanLoop, if_neg hc] at e
        rw [dCleanLoop, if_neg hc]
        cases e
        rfl
  exact key _ s cur h.inv rfl e

/-- Clean-up of a default source over a heap of blocs, when nothing else is registered in the regions of the heap and the
last region is visited: exactly the registrations of the heap disappear, and the headers of these regions are given back. -/
theorem C66_cleanup_partial (own : Nat → Option Nat) {s : S} {heap sz : Nat} (h : Reach s) (hsz : 0 < sz)
    (hend : heap + sz ≤ 281474976710656) (hlast : heap % TB1 ≤ (heap + sz - 1) % TB1)
    (honly : ∀ k, heap / TB1 ≤ k / N → k / N ≤ (heap + sz - 1) / TB1 → look s k ≠ 0 → heap ≤ k * MB2 ∧ k * MB2 < heap + sz) :
    ∃ s', cleanLoop own s (heap + sz) heap = .ok s' ∧
      (∀ k, look s' k = if heap ≤ k * MB2 ∧ k * MB2 < heap + sz then 0 else look s k) ∧
      ∀ a, heap ≤ a → a < heap + sz → exist s' a = .ok false := by
  rcases cleanLoop_eq own _ h.inv (end_ := heap + sz) (cur := heap) rfl with ⟨_, hb⟩ | ⟨s', e, I', hg, hl⟩
  · omega
  · have hv : ∀ i, Visited heap (heap + sz) i ↔ heap / TB1 ≤ i ∧ i ≤ (heap + sz - 1) / TB1 := by
      intro i
      unfold Visited
      constructor
      · rintro ⟨a, b⟩; exact ⟨a, by omega⟩
      · rintro ⟨a, b⟩; exact ⟨a, by omega⟩
    refine ⟨s', e, fun k => ?_, fun a h1 h2 => ?_⟩
    · rw [hl k]
      have hkr : k / N = k * MB2 / TB1 := by unfold N; omega
      by_cases hk : heap ≤ k * MB2 ∧ k * MB2 < heap + sz
      · rw [if_pos hk, if_pos ((hv _).2 (by rw [hkr]; omega))]
      · rw [if_neg hk]
        split
        · rename_i hh
          have := (hv _).1 hh
          exact (Classical.byContradiction fun hne => hk (honly k this.1 this.2 hne)).symm
        · rfl
    · unfold exist get
      rw [if_neg (by omega), Outcome.ok_bind, hg, if_pos ((hv _).2 (by omega))]
      rfl

/-! ## Witnesses -/

/-- Registering in a free slot succeeds if the region exists or its header can be mapped. -/
theorem C66_put_succeeds {s : S} {a b : Nat} {p : Option Nat} (h : Reach s) (ha : a < 281474976710656)
    (hp : ∀ q, p = some q → q ≠ 0 ∧ s.hdr q = none) (hz : look s (a / MB2) = 0)
    (hm : p ≠ none ∨ exist s a = .ok true) : ∃ s', put s a b p = .ok s' ∧ Reach s' ∧ exist s' a = .ok true := by
  have I := h.inv
  have hid : ¬ a / TB1 ≥ 256 := by omega
  have e1 : ∃ s1 r, getEntry s a p = .ok (s1, r, a % TB1 / MB2) := by
    unfold getEntry get
    rw [if_neg hid, Outcome.ok_bind]
    by_cases h0 : s.glob (a / TB1) = 0
    · rw [if_pos h0]
      unfold setup
      rw [if_neg hid]
      simp only
      rw [(I.regionInit).2.1, if_pos h0]
      cases p with
      | none =>
        rcases hm with hm | hm
        · exact absurd rfl hm
        · unfold exist get at hm
          rw [if_neg hid, Outcome.ok_bind, h0] at hm
          cases hm
      | some q => exact ⟨_, _, rfl⟩
    · rw [if_neg h0]
      exact ⟨_, _, rfl⟩
  obtain ⟨s1, r, e1⟩ := e1
  obtain ⟨I1, hr, hrg, _, _, hl⟩ := I.getEntry hp e1
  cases hf : s1.hdr r with
  | none => exact absurd hf hr
  | some f =>
    have hfi : f (a % TB1 / MB2) = 0 := by
      rw [← hl] at hz
      unfold look at hz
      have h1 : a / MB2 / N = a / TB1 := by unfold N; omega
      have h2 : a / MB2 % N = a % TB1 / MB2 := by unfold N; omega
      rw [h1, ← hrg, hf, h2] at hz
      exact hz
    have e : put s a b p = .ok { s1 with hdr := fun x => if x = r then some (fun j => if j = a % TB1 / MB2 then b else f j) else s1.hdr x } := by
      unfold put
      rw [e1, Outcome.ok_bind]
      simp only
      rw [rd_eq hf, Outcome.ok_bind, if_neg (by simp [hfi]), wr_eq hf]
    refine ⟨_, e, h.step (.put hp e), ?_⟩
    unfold exist get
    rw [if_neg hid, Outcome.ok_bind]
    have : s1.glob (a / TB1) ≠ 0 := fun h0 => by rw [hrg, h0, I1.zero] at hr; exact hr rfl
    show Outcome.ok (s1.glob (a / TB1) != 0) = _
    simp [this]

theorem look_start (k : Nat) : look start k = 0 := rfl

/-- Blocs of two chains registered in region 0: slot 4 (bloc at 8 MB) and slot 8 (bloc at 16 MB). -/
theorem two : ∃ s, Reach s ∧ exist s 8388608 = .ok true ∧
    ∀ k, look s k = if k = 8 then 16777216 else if k = 4 then 8388608 else 0 := by
  obtain ⟨s1, e1, r1, x1⟩ := C66_put_succeeds (a := 8388608) (b := 8388608) (p := some 4096) Reach.start (by omega)
    (by rintro q ⟨⟩; exact ⟨by decide, rfl⟩) rfl (.inl (by simp))
  have l1 := ((C66_put (a := 8388608) (b := 8388608) (p := some 4096) Reach.start
    (by rintro q ⟨⟩; exact ⟨by decide, rfl⟩)).1 s1 e1).2
  have x1' : exist s1 16777216 = .ok true := x1
  obtain ⟨s2, e2, r2, x2⟩ := C66_put_succeeds (a := 16777216) (b := 16777216) (p := none) r1 (by omega)
    (by rintro q ⟨⟩) (by rw [l1]; rfl) (.inr x1')
  have l2 := ((C66_put (a := 16777216) (b := 16777216) (p := none) r1 (by rintro q ⟨⟩)).1 s2 e2).2
  refine ⟨s2, r2, x2, fun k => ?_⟩
  rw [l2, l1, look_start]

/-- Hypotheses of `C66_del_chain` and `C66_del_refused` together: chain 77 owns the bloc of slot 4, chain 78 that of slot 8.
Removing 77 clears slot 4 only, and the region cannot be deleted. -/
example : ∃ s s' r, Reach s ∧ get s 8388608 = .ok r ∧
    delChain (fun b => if b = 8388608 then some 77 else some 78) s r 77 = .ok s' ∧ look s' 4 = 0 ∧ look s' 8 = 16777216 ∧
    del s' r = .ok s' := by
  obtain ⟨s, hr, _, hl⟩ := two
  obtain ⟨r, s', e0, e1, hg, h1⟩ := C66_del_chain (own := fun b => if b = 8388608 then some 77 else some 78) (a := 8388608) (c := 77)
    hr (by omega) (by omega) (fun k _ _ => by split <;> simp)
  have h8 : look s' 8 = 16777216 := by rw [h1, hl]; decide
  have e0' : get s' 8388608 = .ok r := by unfold get at e0 ⊢; rw [hg]; exact e0
  refine ⟨s, s', r, hr, e0, e1, by rw [h1, hl]; decide, h8, ?_⟩
  exact C66_del_refused (k := 8) (hr.step (.delChain e0 e1)) e0' (by decide) (by rw [h8]; decide)

/-- Hypotheses of `C66_del` on a region that exists: set up and not used. -/
example : ∃ s r, Reach s ∧ get s 8388608 = .ok r ∧ r ≠ 0 ∧ ∀ k, k / N = 8388608 / TB1 → look s k = 0 := by
  have e : setup start 8388608 (some 4096) = .ok (_, 4096) := rfl
  exact ⟨_, 4096, Reach.start.step (.setup (by rintro q ⟨⟩; exact ⟨by decide, rfl⟩) e), rfl, by decide, fun k _ => by
    rw [(Inv.start.setup (by rintro q ⟨⟩; exact ⟨by decide, rfl⟩) e).2.2.2.2 k]; rfl⟩

/-- Hypotheses of `C66_cleanup_partial`: a heap of 10 MB from 8 MB, both blocs in it. -/
example : ∃ s, Reach s ∧ look s 4 ≠ 0 ∧ (8388608 % TB1 ≤ (8388608 + 10485760 - 1) % TB1) ∧
    ∀ k, look s k ≠ 0 → 8388608 ≤ k * MB2 ∧ k * MB2 < 8388608 + 10485760 := by
  obtain ⟨s, hr, _, hl⟩ := two
  refine ⟨s, hr, by rw [hl]; decide, by decide, fun k hk => ?_⟩
  rw [hl] at hk
  by_cases h8 : k = 8
  · omega
  · by_cases h4 : k = 4
    · omega
    · rw [if_neg h8, if_neg h4] at hk
      exact absurd rfl hk

/-- Clean-up of a default source whose heap is 8 MB to 10 MB: the bloc at 16 MB, outside of the heap and of another chain, is
no longer found. -/
theorem C66_refuted_shared (own : Nat → Option Nat) : ∃ s s', Reach s ∧ look s 8 = 16777216 ∧
    cleanLoop own s (8388608 + 2097152) 8388608 = .ok s' ∧ look s' 8 = 0 := by
  obtain ⟨s, hr, _, hl⟩ := two
  rcases cleanLoop_eq own _ hr.inv (end_ := 8388608 + 2097152) (cur := 8388608) rfl with ⟨_, h⟩ | ⟨s', e, _, _, h⟩
  · omega
  · exact ⟨s, s', hr, by rw [hl]; decide, e, by rw [h, if_pos (by decide)]⟩

/-- A heap of 4 MB around the limit of two regions, from 1 TB - 2 MB: after its clean-up (the memory is unmapped) the second
half is still registered. -/
theorem C66_refuted_straddle (own : Nat → Option Nat) : ∃ s s', Reach s ∧
    look s 524287 = 1099509530624 ∧ look s 524288 = 1099509530624 ∧
    cleanLoop own s (1099509530624 + 4194304) 1099509530624 = .ok s' ∧ look s' 524287 = 0 ∧ look s' 524288 = 1099509530624 := by
  obtain ⟨s1, e1, r1, x1⟩ := C66_put_succeeds (a := 1099509530624) (b := 1099509530624) (p := some 4096) Reach.start (by omega)
    (by rintro q ⟨⟩; exact ⟨by decide, rfl⟩) rfl (.inl (by simp))
  have l1 := ((C66_put (a := 1099509530624) (b := 1099509530624) (p := some 4096) Reach.start
    (by rintro q ⟨⟩; exact ⟨by decide, rfl⟩)).1 s1 e1).2
  have hn : ∃ q, q ≠ 0 ∧ s1.hdr q = none := by
    refine Classical.byContradiction fun hh => ?_
    have hall : ∀ q, q ≠ 0 → s1.hdr q ≠ none := fun q h0 hq => hh ⟨q, h0, hq⟩
    -- at most 256 headers are mapped
    have hi : ∀ q, ∃ i, i < 256 ∧ s1.glob i = q + 1 := fun q => by
      obtain ⟨i, h1, h2, _⟩ := ((C66_headers r1).1 (q + 1)).1 (hall _ (by omega))
      exact ⟨i, h1, h2⟩
    have hinj := (C66_headers r1).2
    let g : Fin 257 → Fin 256 := fun q => ⟨Classical.choose (hi q.1), (Classical.choose_spec (hi q.1)).1⟩
    have hg : Function.Injective g := by
      intro x y hxy
      have h1 := (Classical.choose_spec (hi x.1)).2
      have h2 := (Classical.choose_spec (hi y.1)).2
      have h3 : Classical.choose (hi x.1) = Classical.choose (hi y.1) := congrArg Fin.val hxy
      rw [h3, h2] at h1
      exact Fin.ext (by omega)
    have := Fintype.card_le_of_injective g hg
    simp at this
  obtain ⟨q, hq0, hqn⟩ := hn
  have hp : ∀ x, some q = some x → x ≠ 0 ∧ s1.hdr x = none := by rintro x ⟨⟩; exact ⟨hq0, hqn⟩
  obtain ⟨s2, e2, r2, _⟩ := C66_put_succeeds (a := 1099511627776) (b := 1099509530624) (p := some q) r1 (by omega) hp
    (by rw [l1]; rfl) (.inl (by simp))
  have l2 := ((C66_put (a := 1099511627776) (b := 1099509530624) (p := some q) r1 hp).1 s2 e2).2
  have hl : ∀ k, look s2 k = if k = 524288 then 1099509530624 else if k = 524287 then 1099509530624 else 0 := fun k => by
    rw [l2, l1, look_start]
  rcases cleanLoop_eq own _ r2.inv (end_ := 1099509530624 + 4194304) (cur := 1099509530624) rfl with ⟨_, h⟩ | ⟨s', e, _, _, h⟩
  · omega
  · exact ⟨s2, s', r2, by rw [hl]; decide, by rw [hl]; decide, e, by rw [h, if_pos (by decide)],
      by rw [h, if_neg (by decide), hl]; decide⟩

/-- One bloc, registered in slot 1. -/
theorem one : ∃ s f, Reach s ∧ s.glob 0 ≠ 0 ∧ s.hdr (s.glob 0) = some f ∧ f 0 = 0 ∧ f 1 = 2097152 := by
  obtain ⟨s, e, hr, x⟩ := C66_put_succeeds (a := 2097152) (b := 2097152) (p := some 4096) Reach.start (by omega)
    (by rintro q ⟨⟩; exact ⟨by decide, rfl⟩) rfl (.inl (by simp))
  have hl := ((C66_put (a := 2097152) (b := 2097152) (p := some 4096) Reach.start
    (by rintro q ⟨⟩; exact ⟨by decide, rfl⟩)).1 s e).2
  have I := hr.inv
  have h0 : s.glob 0 ≠ 0 := fun h0 => by
    unfold exist get at x
    rw [if_neg (by decide), Outcome.ok_bind] at x
    have h0' : s.glob (2097152 / TB1) = 0 := h0
    rw [h0'] at x
    cases x
  cases hf : s.hdr (s.glob 0) with
  | none => exact absurd hf (I.live _ h0)
  | some f =>
    have hlf : ∀ k, k < N → look s k = f k := fun k hk => by
      unfold look
      have h1 : k / N = 0 := Nat.div_eq_of_lt hk
      have h2 : k % N = k := Nat.mod_eq_of_lt hk
      rw [h1, hf, h2]
    refine ⟨s, f, hr, h0, hf, ?_, ?_⟩
    · rw [← hlf 0 (by decide), hl]; decide
    · rw [← hlf 1 (by decide), hl]; decide

/-- Removing chain 77 reads the owner of every bloc of the region: if the memory of a bloc of another chain has been given back
while it was registered (`C47_refuted` leaves such a registration), destroying chain 77 is a fault. -/
theorem C66_refuted_stale : ∃ s r, Reach s ∧ get s 8388608 = .ok r ∧ look s 1 = 2097152 ∧
    delChain (fun b => if b = 2097152 then none else some 77) s r 77 = .ub := by
  obtain ⟨s, f, hr, h0, hf, f0, f1⟩ := one
  obtain ⟨_, hg, hh⟩ := hr.inv.regionInit
  have hf' : (regionInit s).hdr (s.glob 0) = some f := by rw [hh]; exact hf
  refine ⟨s, s.glob 0, hr, rfl, ?_, ?_⟩
  · show (match s.hdr (s.glob 0) with | none => 0 | some f => f 1) = _
    rw [hf]
    exact f1
  · unfold delChain
    rw [if_neg h0, delChainLoop, if_pos (by decide), if_neg (by decide), Outcome.ok_bind, rd_eq hf', Outcome.ok_bind, f0]
    unfold delOwned
    rw [if_pos rfl, Outcome.ok_bind, delChainLoop, if_pos (by decide), if_neg (by decide), Outcome.ok_bind, rd_eq hf',
      Outcome.ok_bind, f1]
    rfl

/-- Deleting through a pointer to a header that has been given back is a fault. -/
theorem C66_refuted_twice : ∃ s s' r, Reach s ∧ get s 8388608 = .ok r ∧ del s r = .ok s' ∧ del s' r = .ub := by
  have e : setup start 8388608 (some 4096) = .ok (_, 4096) := rfl
  have hp : ∀ q, some 4096 = some q → q ≠ 0 ∧ start.hdr q = none := by rintro q ⟨⟩; exact ⟨by decide, rfl⟩
  have hr := Reach.start.step (.setup hp e)
  have hl := (Inv.start.setup hp e).2.2.2.2
  obtain ⟨s', e1, _, h2, _⟩ := C66_del (a := 8388608) (r := 4096) hr rfl (fun k _ => by rw [hl k]; rfl)
  refine ⟨_, s', 4096, hr, rfl, e1, ?_⟩
  unfold del
  rw [if_neg (by decide), hasRef, if_pos (by decide)]
  have : rd s' 4096 0 = .ub := by
    unfold rd
    rw [h2 4096, if_pos rfl]
  rw [this]
  rfl

end MpcAlloc.RegionDel
