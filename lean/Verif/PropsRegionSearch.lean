import Verif.RegionSearch

/-
Property C69: the search of the bloc of an address while other threads register and remove blocs.
-/

namespace MpcAlloc
namespace RegionSearch

/-! ## Specification -/

/-- The address is in the bloc. -/
def S.In (s : S) (b p : Nat) : Prop := b ≤ p ∧ p < b + s.size b

/-- Thread `t` is in a search for the address `p` of the bloc `b`, which has been registered since the search began. -/
inductive Seek (once : Bool) (t p b : Nat) : S → Prop
  | call {s : S} : Reach once s → s.pc t = none → s.live b → s.In b p → Seek once t p b (s.go t (some (.find p .e1)))
  | act {s s' : S} {u : Nat} {x : Option Nat} : Seek once t p b s → Act once s u x s' → s'.pc t ≠ none → s'.live b →
      Seek once t p b s'

/-- Thread `t` is in a search for the address `p`, which has been in no bloc since the search began. -/
inductive Astray (once : Bool) (t p : Nat) : S → Prop
  | call {s : S} : Reach once s → s.pc t = none → (∀ b, s.Held b → ¬ s.In b p) → Astray once t p (s.go t (some (.find p .e1)))
  | act {s s' : S} {u : Nat} {x : Option Nat} : Astray once t p s → Act once s u x s' → s'.pc t ≠ none →
      (∀ b, s'.Held b → ¬ s'.In b p) → Astray once t p s'

/-- The step goes on with the search or ends it with the result `v`. -/
def Gives (t v : Nat) (r : Outcome (S × Option Nat)) : Prop :=
  ∃ s', (r = .ok (s', none) ∧ s'.pc t ≠ none) ∨ (r = .ok (s', some v) ∧ s'.pc t = none)

/-! ## Lemmas -/

theorem Seek.reach {once : Bool} {t p b : Nat} {s : S} (h : Seek once t p b s) : Reach once s := by
  induction h with
  | call h1 h2 _ _ => exact h1.act (.find h2)
  | act _ h _ _ ih => exact ih.act h

theorem Seek.live {once : Bool} {t p b : Nat} {s : S} (h : Seek once t p b s) : s.live b := by
  cases h with
  | call _ _ h _ => exact h
  | act _ _ _ h => exact h

theorem S.regNext_eq (s : S) (u b j : Nat) : s.regNext u b j = s.go u (some (.reg b j false)) ∨
    s.regNext u b j = { s with live := fun c => c = b ∨ s.live c }.go u none := by
  unfold S.regNext
  by_cases h : b + j * MB2 < b + s.size b
  · exact Or.inl (if_pos h)
  · exact Or.inr (if_neg h)

theorem S.unregNext_eq (s : S) (u b j : Nat) : s.unregNext u b j = s.go u (some (.unreg b j false)) ∨
    s.unregNext u b j = s.go u none := by
  unfold S.unregNext
  by_cases h : b + j * MB2 < b + s.size b
  · exact Or.inl (if_pos h)
  · exact Or.inr (if_neg h)

theorem regNext_other {s : S} {t u b j : Nat} (hne : t ≠ u) : (s.regNext u b j).pc t = s.pc t := by
  rcases s.regNext_eq u b j with h | h <;> rw [h] <;> exact upd_ne hne

theorem unregNext_other {s : S} {t u b j : Nat} (hne : t ≠ u) : (s.unregNext u b j).pc t = s.pc t := by
  rcases s.unregNext_eq u b j with h | h <;> rw [h] <;> exact upd_ne hne

theorem regNext_size {s : S} {u b j : Nat} : (s.regNext u b j).size = s.size := by
  rcases s.regNext_eq u b j with h | h <;> rw [h] <;> rfl

theorem unregNext_size {s : S} {u b j : Nat} : (s.unregNext u b j).size = s.size := by
  rcases s.unregNext_eq u b j with h | h <;> rw [h] <;> rfl

/-- The step of one thread leaves the others where they are. -/
theorem Act.other {once : Bool} {s s' : S} {t u : Nat} {x : Option Nat} (h : Act once s u x s') (hne : t ≠ u) :
    s'.pc t = s.pc t := by
  cases h with
  | reg _ _ _ _ _ => exact upd_ne hne
  | unreg _ _ => exact upd_ne hne
  | find _ => exact upd_ne hne
  | step h =>
    generalize hr : (Outcome.ok (s', x)) = r at h
    cases h with
    | regTest ht =>
      split at hr
      · cases hr
      · obtain ⟨rfl, rfl⟩ := Prod.mk.inj (Outcome.ok.inj hr); exact upd_ne hne
    | regStore ht =>
      obtain ⟨rfl, rfl⟩ := Prod.mk.inj (Outcome.ok.inj hr)
      exact regNext_other hne
    | unregTest ht =>
      obtain ⟨rfl, rfl⟩ := Prod.mk.inj (Outcome.ok.inj hr)
      split
      · exact upd_ne hne
      · exact unregNext_other hne
    | unregStore ht =>
      obtain ⟨rfl, rfl⟩ := Prod.mk.inj (Outcome.ok.inj hr)
      exact unregNext_other hne
    | @find p c r ht hf =>
      have q : ∀ y d, (Outcome.ok (s.go u d, y) = Outcome.ok (s', x)) → s'.pc t = s.pc t := by
        intro y d h
        obtain ⟨rfl, _⟩ := Prod.mk.inj (Outcome.ok.inj h)
        exact upd_ne hne
      replace hr := hr.symm
      cases hf
      all_goals (try split at hr) <;> (try split at hr) <;> first
        | exact q _ _ hr
        | cases hr

/-- The size of a bloc that stays registered stays the same. -/
theorem Act.size {once : Bool} {s s' : S} {u b : Nat} {x : Option Nat} (I : Inv s) (h : Act once s u x s') (hb : s.Held b) :
    s'.size b = s.size b := by
  cases h with
  | @reg c n _ _ h0 _ hd =>
    have : b ≠ c := by
      rintro rfl
      have := I.shape b hb
      rcases hd b hb with h1 | h1 <;> omega
    exact upd_ne this
  | unreg _ _ => rfl
  | find _ => rfl
  | step h =>
    generalize hr : (Outcome.ok (s', x)) = r at h
    cases h with
    | regTest ht =>
      split at hr
      · cases hr
      · obtain ⟨rfl, rfl⟩ := Prod.mk.inj (Outcome.ok.inj hr); rfl
    | regStore ht =>
      obtain ⟨rfl, rfl⟩ := Prod.mk.inj (Outcome.ok.inj hr)
      rw [regNext_size]
    | unregTest ht =>
      obtain ⟨rfl, rfl⟩ := Prod.mk.inj (Outcome.ok.inj hr)
      split
      · rfl
      · rw [unregNext_size]
    | unregStore ht =>
      obtain ⟨rfl, rfl⟩ := Prod.mk.inj (Outcome.ok.inj hr)
      rw [unregNext_size]
    | @find p c r ht hf =>
      have q : ∀ y d, (Outcome.ok (s.go u d, y) = Outcome.ok (s', x)) → s'.size b = s.size b := by
        intro y d h
        obtain ⟨rfl, _⟩ := Prod.mk.inj (Outcome.ok.inj h)
        rfl
      replace hr := hr.symm
      cases hf
      all_goals (try split at hr) <;> (try split at hr) <;> first
        | exact q _ _ hr
        | cases hr

theorem Seek.in {once : Bool} {t p b : Nat} {s : S} (h : Seek once t p b s) : s.In b p := by
  induction h with
  | call _ _ _ h => exact h
  | act h1 h _ _ ih =>
    unfold S.In at ih ⊢
    rw [h.size h1.reach.inv (Or.inl h1.live)]
    exact ih

/-- The address has an entry of the bloc. -/
def Own (b n p : Nat) : Prop := (p / MB2 - b / MB2) * MB2 < n

/-- The places of a search for an address of the bloc `b` of `n` bytes. -/
def Loc (once : Bool) (b n p : Nat) (c : Spot) : Prop :=
  (Own b n p ∧ (c = .e1 ∨ c = .e2 ∨ c = .e3)) ∨
    (¬ Own b n p ∧ once = true ∧ (c = .e1 ∨ c = .f1 ∨ c = .g b b))

theorem find_loc {once : Bool} {s : S} {t p b : Nat} {c : Spot} {r : Outcome (S × Option Nat)} (I : Inv s)
    (hb : s.live b) (hp : MB2 < p) (hi : s.In b p) (hl : Loc once b (s.size b) p c) (h : Find once s t p c r) :
    (∃ c', r = .ok (s.go t (some (.find p c')), none) ∧ Loc once b (s.size b) p c') ∨ r = .ok (s.go t none, some b) := by
  obtain ⟨h1, h2⟩ := hi
  obtain ⟨s1, s2, s3⟩ := I.shape b (Or.inl hb)
  rcases hl with ⟨ho, hc⟩ | ⟨ho, rfl, hc⟩
  · have he : s.ent (p / MB2) = b := by
      have := I.live b hb _ ho
      rwa [show b / MB2 + (p / MB2 - b / MB2) = p / MB2 by omega] at this
    rcases hc with rfl | rfl | rfl
    · cases h with
      | e1_once =>
        rw [he, if_neg (by omega)]; exact Or.inr rfl
      | e1 =>
        rw [he, if_neg s1]; exact Or.inl ⟨_, rfl, Or.inl ⟨ho, Or.inr (Or.inl rfl)⟩⟩
    · cases h with
      | e2 =>
        rw [he, if_neg (by omega)]; exact Or.inl ⟨_, rfl, Or.inl ⟨ho, Or.inr (Or.inr rfl)⟩⟩
    · cases h with
      | e3 => rw [he]; exact Or.inr rfl
  · have he : s.ent ((p - MB2) / MB2) = b := by
      have hi : (p / MB2 - 1 - b / MB2) * MB2 < s.size b := by unfold Own at ho; omega
      have := I.live b hb _ hi
      rwa [show b / MB2 + (p / MB2 - 1 - b / MB2) = (p - MB2) / MB2 by unfold Own at ho; omega] at this
    rcases hc with rfl | rfl | rfl
    · cases h with
      | e1_once =>
        have : s.ent (p / MB2) = 0 ∨ s.ent (p / MB2) > p := by
          by_cases e : s.ent (p / MB2) = 0
          · exact Or.inl e
          · right
            obtain ⟨g1, i, g2, g3⟩ := I.own _ e
            have g4 := I.shape _ g1
            have hne : b ≠ s.ent (p / MB2) := by
              intro h
              rw [← h] at g2 g3
              unfold Own at ho
              omega
            unfold Own at ho
            rcases I.disj b _ (Or.inl hb) g1 hne with g5 | g5 <;> omega
        rw [if_pos ⟨this, hp⟩]
        exact Or.inl ⟨_, rfl, Or.inr ⟨ho, rfl, Or.inr (Or.inl rfl)⟩⟩
      | e1 h => cases h
    · cases h with
      | f1_once =>
        rw [he, if_pos ⟨s1, by unfold Own at ho; omega⟩]
        exact Or.inl ⟨_, rfl, Or.inr ⟨ho, rfl, Or.inr (Or.inr rfl)⟩⟩
      | f1 h => cases h
    · cases h with
      | g_ub h =>
        rcases h with h | h
        · exact absurd h s1
        · exact absurd (Or.inl hb) h
      | g _ _ => rw [if_pos h2, if_pos rfl]; exact Or.inr rfl

theorem Seek.loc {once : Bool} {t p b : Nat} {s : S} (h : Seek once t p b s) (hp : MB2 < p)
    (ho : once = true ∨ Own b (s.size b) p) : ∃ c, s.pc t = some (.find p c) ∧ Loc once b (s.size b) p c := by
  induction h with
  | @call s _ _ _ _ =>
    refine ⟨.e1, upd_same _ _ _, ?_⟩
    rcases Classical.em (Own b (s.size b) p) with h | h
    · exact Or.inl ⟨h, Or.inl rfl⟩
    · rcases ho with h' | h'
      · exact Or.inr ⟨h, h', Or.inl rfl⟩
      · exact absurd h' h
  | @act s s' u x h1 h h2 _ ih =>
    have hs := h.size h1.reach.inv (Or.inl h1.live)
    rw [hs] at ho ⊢
    obtain ⟨c, e, hl⟩ := ih ho
    by_cases hu : t = u
    · subst hu
      cases h with
      | reg h _ _ _ _ => rw [h] at e; cases e
      | unreg h _ => rw [h] at e; cases e
      | find h => rw [h] at e; cases e
      | step h =>
        generalize hr : (Outcome.ok (s', x)) = r at h
        cases h with
        | find ht hf =>
          rw [e] at ht; cases ht
          rcases find_loc h1.reach.inv h1.live hp h1.in hl hf with ⟨c', rfl, hl'⟩ | rfl
          · obtain ⟨rfl, rfl⟩ := Prod.mk.inj (Outcome.ok.inj hr)
            exact ⟨c', upd_same _ _ _, hl'⟩
          · obtain ⟨rfl, rfl⟩ := Prod.mk.inj (Outcome.ok.inj hr)
            exact absurd (upd_same _ _ _) h2
        | regTest ht => rw [e] at ht; cases ht
        | regStore ht => rw [e] at ht; cases ht
        | unregTest ht => rw [e] at ht; cases ht
        | unregStore ht => rw [e] at ht; cases ht
    · exact ⟨c, by rw [h.other hu]; exact e, hl⟩

theorem Seek.gives {once : Bool} {t p b : Nat} {s : S} (h : Seek once t p b s) (hp : MB2 < p)
    (ho : once = true ∨ Own b (s.size b) p) {r : Outcome (S × Option Nat)} (st : Step once s t r) : Gives t b r := by
  obtain ⟨c, e, hl⟩ := h.loc hp ho
  cases st with
  | find ht hf =>
    rw [e] at ht; cases ht
    rcases find_loc h.reach.inv h.live hp h.in hl hf with ⟨c', rfl, _⟩ | rfl
    · refine ⟨_, Or.inl ⟨rfl, ?_⟩⟩
      rw [show (s.go t (some (.find p c'))).pc t = some (.find p c') from upd_same _ _ _]
      exact fun h => by cases h
    · exact ⟨_, Or.inr ⟨rfl, upd_same _ _ _⟩⟩
  | regTest ht => rw [e] at ht; cases ht
  | regStore ht => rw [e] at ht; cases ht
  | unregTest ht => rw [e] at ht; cases ht
  | unregStore ht => rw [e] at ht; cases ht

theorem Astray.out {once : Bool} {t p : Nat} {s : S} (h : Astray once t p s) : ∀ b, s.Held b → ¬ s.In b p := by
  cases h with
  | call _ h1 h2 =>
    intro b hb
    refine h2 b ((go_held ?_ ?_ b).1 hb)
    · intro b d h; rw [h1] at h; cases h
    · intro b d h; cases h; exact id
  | act _ _ _ h => exact h

theorem Astray.reach {once : Bool} {t p : Nat} {s : S} (h : Astray once t p s) : Reach once s := by
  induction h with
  | call h1 h2 _ => exact h1.act (.find h2)
  | act _ h _ _ ih => exact ih.act h

/-- The places of a search for an address in no bloc. -/
def Far (p : Nat) (c : Spot) : Prop := c = .e1 ∨ c = .f1 ∨ ∃ v, c = .g v v ∧ v < p

theorem find_far {s : S} {t p : Nat} {c : Spot} {r : Outcome (S × Option Nat)} (I : Inv s) (hp : MB2 < p)
    (ho : ∀ b, s.Held b → ¬ s.In b p) (hl : Far p c) (h : Find true s t p c r) :
    (∃ c', r = .ok (s.go t (some (.find p c')), none) ∧ Far p c') ∨ r = .ok (s.go t none, some 0) ∨ r = .ub := by
  rcases hl with rfl | rfl | ⟨v, rfl, hv⟩
  · cases h with
    | e1_once =>
      have : s.ent (p / MB2) = 0 ∨ s.ent (p / MB2) > p := by
        apply Classical.byContradiction
        intro hn
        have e : s.ent (p / MB2) ≠ 0 := fun h => hn (Or.inl h)
        have e' : ¬ s.ent (p / MB2) > p := fun h => hn (Or.inr h)
        obtain ⟨g1, i, g2, g3⟩ := I.own _ e
        have g4 := I.shape _ g1
        exact ho _ g1 ⟨by omega, by omega⟩
      rw [if_pos ⟨this, hp⟩]
      exact Or.inl ⟨_, rfl, Or.inr (Or.inl rfl)⟩
    | e1 h => cases h
  · cases h with
    | f1_once =>
      split
      · rename_i h
        exact Or.inl ⟨_, rfl, Or.inr (Or.inr ⟨_, rfl, h.2⟩)⟩
      · exact Or.inr (Or.inl rfl)
    | f1 h => cases h
  · cases h with
    | g_ub _ => exact Or.inr (Or.inr rfl)
    | g h0 h1 =>
      rw [if_neg fun h => ho v h1 ⟨Nat.le_of_lt hv, h⟩]
      exact Or.inr (Or.inl rfl)

theorem Astray.far {t p : Nat} {s : S} (h : Astray true t p s) (hp : MB2 < p) :
    ∃ c, s.pc t = some (.find p c) ∧ Far p c := by
  induction h with
  | call _ _ _ => exact ⟨.e1, upd_same _ _ _, Or.inl rfl⟩
  | @act s s' u x h1 h h2 _ ih =>
    obtain ⟨c, e, hl⟩ := ih
    by_cases hu : t = u
    · subst hu
      cases h with
      | reg h _ _ _ _ => rw [h] at e; cases e
      | unreg h _ => rw [h] at e; cases e
      | find h => rw [h] at e; cases e
      | step h =>
        generalize hr : (Outcome.ok (s', x)) = r at h
        cases h with
        | find ht hf =>
          rw [e] at ht; cases ht
          rcases find_far h1.reach.inv hp h1.out hl hf with ⟨c', rfl, hl'⟩ | rfl | rfl
          · obtain ⟨rfl, rfl⟩ := Prod.mk.inj (Outcome.ok.inj hr)
            exact ⟨c', upd_same _ _ _, hl'⟩
          · obtain ⟨rfl, rfl⟩ := Prod.mk.inj (Outcome.ok.inj hr)
            exact absurd (upd_same _ _ _) h2
          · cases hr
        | regTest ht => rw [e] at ht; cases ht
        | regStore ht => rw [e] at ht; cases ht
        | unregTest ht => rw [e] at ht; cases ht
        | unregStore ht => rw [e] at ht; cases ht
    · exact ⟨c, by rw [h.other hu]; exact e, hl⟩

/-! ## Properties -/

/-- C69: while blocs are registered and removed by any threads, all entries of a registered bloc name it. -/
theorem C69_registered {once : Bool} {s : S} (h : Reach once s) {b : Nat} (hb : s.live b) {a : Nat} (ha : s.In b a)
    (hj : (a - b) % MB2 = 0) : s.ent (a / MB2) = b := by
  have := h.inv.live b hb ((a - b) / MB2) (by unfold S.In at ha; omega)
  rwa [show b / MB2 + (a - b) / MB2 = a / MB2 by unfold S.In at ha; omega] at this

/-- C69: no registration aborts. -/
theorem C69_no_abort {once : Bool} {s : S} (h : Reach once s) (t : Nat) : ¬ Step once s t .abort := by
  intro st
  generalize hr : (Outcome.abort : Outcome (S × Option Nat)) = r at st
  cases st with
  | @regTest b j ht =>
    split at hr
    · rename_i he
      obtain ⟨h1, h2⟩ := h.inv.pcs t _ ht
      exact he (by rw [idx, h2 j h1, if_neg (Nat.lt_irrefl j)])
    · cases hr
  | regStore ht => cases hr
  | unregTest ht => cases hr
  | unregStore ht => cases hr
  | find ht hf =>
    cases hf <;> (try split at hr) <;> (try split at hr) <;> cases hr

/-- C69: entries that name no registered bloc are those of blocs that a thread registers or removes at this time. -/
theorem C69_removed {once : Bool} {s : S} (h : Reach once s) (hq : ∀ t b, s.pc t = some b → ∃ p c, b = .find p c) {k : Nat} :
    s.ent k ≠ 0 → s.live (s.ent k) := by
  intro hk
  rcases (h.inv.own k hk).1 with h | ⟨t, c, ht, hc⟩
  · exact h
  · obtain ⟨p, d, rfl⟩ := hq t c ht
    exact hc.elim

/-- C69, when the reads of one entry are one load: a search for an address of a bloc that is registered all the time finds
the bloc, whatever other threads register and remove. -/
theorem C69_found_partial {t p b : Nat} {s : S} (h : Seek true t p b s) (hp : MB2 < p) {r : Outcome (S × Option Nat)}
    (st : Step true s t r) : Gives t b r :=
  h.gives hp (Or.inl rfl) st

/-- C69, also when each read is a load: the same for addresses that are not in the last, shared, entry of the bloc, which
are all addresses when the bloc begins at a multiple of 2 MB. -/
theorem C69_found_own_partial {once : Bool} {t p b : Nat} {s : S} (h : Seek once t p b s) (hp : MB2 < p)
    (ho : p / MB2 < (b + s.size b) / MB2) {r : Outcome (S × Option Nat)} (st : Step once s t r) : Gives t b r := by
  refine h.gives hp (Or.inr ?_) st
  have := h.reach.inv.shape b (Or.inl h.live)
  have := h.in
  unfold S.In at this
  unfold Own
  omega

theorem C69_found_aligned_partial {once : Bool} {t p b : Nat} {s : S} (h : Seek once t p b s) (hp : MB2 < p)
    (ho : b % MB2 = 0) {r : Outcome (S × Option Nat)} (st : Step once s t r) : Gives t b r := by
  refine C69_found_own_partial h hp ?_ st
  have := h.reach.inv.shape b (Or.inl h.live)
  have := h.in
  unfold S.In at this
  omega

/-- C69, when the reads of one entry are one load: a search for an address that is in no bloc all the time finds nothing,
if it does not read the size of a bloc whose memory was given back meanwhile (`C69_refuted_fault`). -/
theorem C69_foreign_partial {t p : Nat} {s : S} (h : Astray true t p s) (hp : MB2 < p) {r : Outcome (S × Option Nat)}
    (st : Step true s t r) : Gives t 0 r ∨ r = .ub := by
  obtain ⟨c, e, hl⟩ := h.far hp
  cases st with
  | find ht hf =>
    rw [e] at ht; cases ht
    rcases find_far h.reach.inv hp h.out hl hf with ⟨c', rfl, _⟩ | rfl | rfl
    · refine Or.inl ⟨_, Or.inl ⟨rfl, ?_⟩⟩
      rw [show (s.go t (some (.find p c'))).pc t = some (.find p c') from upd_same _ _ _]
      exact fun h => by cases h
    · exact Or.inl ⟨_, Or.inr ⟨rfl, upd_same _ _ _⟩⟩
    · exact Or.inr rfl
  | regTest ht => rw [e] at ht; cases ht
  | regStore ht => rw [e] at ht; cases ht
  | unregTest ht => rw [e] at ht; cases ht
  | unregStore ht => rw [e] at ht; cases ht

/-- The steps that a search has left at most. -/
def Spot.left : Spot → Nat
  | .e1 => 8
  | .e2 => 7
  | .f1 => 6
  | .f2 => 5
  | .f3 => 4
  | .f4 _ => 3
  | .g _ _ => 2
  | .f5 => 1
  | .e3 => 1

/-- C69: a search ends after at most 8 steps of its thread, whatever the others do. -/
theorem C69_ends {once : Bool} {s s' : S} {t p : Nat} {c : Spot} {x : Option Nat} (ht : s.pc t = some (.find p c))
    (st : Step once s t (.ok (s', x))) :
    (∃ v, x = some v ∧ s'.pc t = none) ∨ ∃ c', x = none ∧ s'.pc t = some (.find p c') ∧ c'.left < c.left := by
  have q : ∀ y, (Outcome.ok (s.go t none, some y) = Outcome.ok (s', x)) → (∃ v, x = some v ∧ s'.pc t = none) ∨
      ∃ c', x = none ∧ s'.pc t = some (.find p c') ∧ c'.left < c.left := by
    intro y h
    obtain ⟨rfl, rfl⟩ := Prod.mk.inj (Outcome.ok.inj h)
    exact Or.inl ⟨y, rfl, upd_same _ _ _⟩
  have q' : ∀ d, (Outcome.ok (s.go t (some (.find p d)), none) = Outcome.ok (s', x)) → d.left < c.left →
      (∃ v, x = some v ∧ s'.pc t = none) ∨ ∃ c', x = none ∧ s'.pc t = some (.find p c') ∧ c'.left < c.left := by
    intro d h hd
    obtain ⟨rfl, rfl⟩ := Prod.mk.inj (Outcome.ok.inj h)
    exact Or.inr ⟨d, rfl, upd_same _ _ _, hd⟩
  generalize hr : (Outcome.ok (s', x)) = r at st
  cases st with
  | find ht' hf =>
    rw [ht] at ht'; cases ht'
    replace hr := hr.symm
    cases hf
    all_goals (try split at hr) <;> (try split at hr) <;> first
      | exact q _ hr
      | exact q' _ hr (by decide)
      | exact q' _ hr (by simp only [Spot.left]; omega)
      | cases hr
  | regTest ht' => rw [ht] at ht'; cases ht'
  | regStore ht' => rw [ht] at ht'; cases ht'
  | unregTest ht' => rw [ht] at ht'; cases ht'
  | unregStore ht' => rw [ht] at ht'; cases ht'

/-! ## The code as it is written -/

/-- Thread 0 registers a bloc of 2 MB, in a class of states `Q` that its steps do not leave. -/
theorem reg_one {once : Bool} {Q : S → Prop} {c : Nat} {s : S}
    (hq : ∀ s s' x, Q s → Act once s 0 x s' → (∀ a, s.live a → s'.live a) → Q s')
    (h : Q s) (h0 : s.pc 0 = none) (hc : c ≠ 0) (hd : ∀ a, s.Held a → c + MB2 ≤ a ∨ a + s.size a ≤ c)
    (he : s.ent (c / MB2) = 0) :
    ∃ s', Q s' ∧ s'.ent = upd s.ent (c / MB2) c ∧ s'.size = upd s.size c MB2 ∧ s'.pc = s.pc ∧
      ∀ a, s'.live a ↔ a = c ∨ s.live a := by
  have a1 := Act.reg (once := once) (s := s) (t := 0) (b := c) (n := MB2) h0 hc (by decide) (by decide) hd
  have q1 := hq _ _ _ h a1 fun a h => h
  have p1 : ({ s with size := upd s.size c MB2 }.go 0 (some (.reg c 0 false))).pc 0 = some (.reg c 0 false) := rfl
  have s1 : ({ s with size := upd s.size c MB2 }.go 0 (some (.reg c 0 false))).size c = MB2 := upd_same _ _ _
  have e1 : ({ s with size := upd s.size c MB2 }.go 0 (some (.reg c 0 false))).ent = s.ent := rfl
  have z1 : ({ s with size := upd s.size c MB2 }.go 0 (some (.reg c 0 false))).size = upd s.size c MB2 := rfl
  have l1 : ({ s with size := upd s.size c MB2 }.go 0 (some (.reg c 0 false))).live = s.live := rfl
  have c1 : ({ s with size := upd s.size c MB2 }.go 0 (some (.reg c 0 false))).pc = upd s.pc 0 (some (.reg c 0 false)) := rfl
  generalize ({ s with size := upd s.size c MB2 }.go 0 (some (.reg c 0 false))) = τ1 at q1 p1 s1 e1 z1 l1 c1
  have a2 := Step.regTest (once := once) p1
  rw [if_neg (by rw [idx, e1, Nat.add_zero]; exact fun h => h he)] at a2
  have q2 := hq _ _ _ q1 (.step a2) fun a h => h
  have p2 : (τ1.go 0 (some (.reg c 0 true))).pc 0 = some (.reg c 0 true) := rfl
  have e2 : (τ1.go 0 (some (.reg c 0 true))).ent = τ1.ent := rfl
  have z2 : (τ1.go 0 (some (.reg c 0 true))).size = τ1.size := rfl
  have l2 : (τ1.go 0 (some (.reg c 0 true))).live = τ1.live := rfl
  have c2 : (τ1.go 0 (some (.reg c 0 true))).pc = upd τ1.pc 0 (some (.reg c 0 true)) := rfl
  generalize τ1.go 0 (some (.reg c 0 true)) = τ2 at q2 p2 e2 z2 l2 c2
  have a3 := Step.regStore (once := once) p2
  have hn : ¬ c + (0 + 1) * MB2 < c + ({ τ2 with ent := upd τ2.ent ((c + 0 * MB2) / MB2) c } : S).size c := by
    show ¬ c + (0 + 1) * MB2 < c + τ2.size c
    rw [z2, s1]; omega
  have en : S.regNext { τ2 with ent := upd τ2.ent ((c + 0 * MB2) / MB2) c } 0 c (0 + 1) = _ := if_neg hn
  rw [en] at a3
  have q3 := hq _ _ _ q2 (.step a3) fun a h => Or.inr h
  refine ⟨_, q3, ?_, ?_, ?_, ?_⟩
  · show upd τ2.ent ((c + 0 * MB2) / MB2) c = _
    rw [idx, Nat.add_zero, e2, e1]
  · show τ2.size = _
    rw [z2, z1]
  · show upd τ2.pc 0 none = _
    funext u
    by_cases hu : u = 0
    · subst hu; rw [upd_same, h0]
    · rw [upd_ne hu, c2, upd_ne hu, c1, upd_ne hu]
  · intro a
    show (a = c ∨ τ2.live a) ↔ _
    rw [l2, l1]

/-- Thread 0 removes a bloc of 2 MB. -/
theorem unreg_one {once : Bool} {Q : S → Prop} {c : Nat} {s : S}
    (hq : ∀ s s' x, Q s → Act once s 0 x s' → (∀ a, a ≠ c → s.live a → s'.live a) → (∀ a, s'.Held a → s.Held a) →
      s'.size = s.size → Q s')
    (h : Q s) (h0 : s.pc 0 = none) (hc : s.live c) (hs : s.size c = MB2) (he : s.ent (c / MB2) = c) :
    ∃ s', Q s' ∧ s'.ent = upd s.ent (c / MB2) 0 ∧ s'.size = s.size ∧ s'.pc = s.pc ∧
      ∀ a, s'.live a ↔ a ≠ c ∧ s.live a := by
  have held : ∀ (s s' : S) (k : Option Pc), (∀ a, s'.live a → s.live a) → s'.pc = upd s.pc 0 k →
      (∀ d a, k = some d → d.Of a → s.Held a) → ∀ a, s'.Held a → s.Held a := by
    intro s s' k h1 h2 h3 a ha
    rcases ha with ha | ⟨u, d, hu, hd⟩
    · exact Or.inl (h1 a ha)
    · rw [h2] at hu
      by_cases e : u = 0
      · subst e; rw [upd_same] at hu; exact h3 d a hu hd
      · rw [upd_ne e] at hu; exact Or.inr ⟨u, d, hu, hd⟩
  have a1 := Act.unreg (once := once) (s := s) (t := 0) (b := c) h0 hc
  have q1 := hq _ _ _ h a1 (fun a hn h => ⟨hn, h⟩) (held s _ (some (.unreg c 0 false)) (fun a h => h.2) rfl
    (by rintro d a hd hd'; cases hd; cases hd'; exact Or.inl hc)) rfl
  have p1 : ({ s with live := fun a => a ≠ c ∧ s.live a }.go 0 (some (.unreg c 0 false))).pc 0 = some (.unreg c 0 false) := rfl
  have e1 : ({ s with live := fun a => a ≠ c ∧ s.live a }.go 0 (some (.unreg c 0 false))).ent = s.ent := rfl
  have z1 : ({ s with live := fun a => a ≠ c ∧ s.live a }.go 0 (some (.unreg c 0 false))).size = s.size := rfl
  have l1 : ({ s with live := fun a => a ≠ c ∧ s.live a }.go 0 (some (.unreg c 0 false))).live = fun a => a ≠ c ∧ s.live a := rfl
  have c1 : ({ s with live := fun a => a ≠ c ∧ s.live a }.go 0 (some (.unreg c 0 false))).pc =
    upd s.pc 0 (some (.unreg c 0 false)) := rfl
  generalize ({ s with live := fun a => a ≠ c ∧ s.live a }.go 0 (some (.unreg c 0 false))) = τ1 at q1 p1 e1 z1 l1 c1
  have a2 := Step.unregTest (once := once) p1
  rw [if_pos (by rw [idx, e1, Nat.add_zero]; exact he)] at a2
  have q2 := hq _ _ _ q1 (.step a2) (fun a _ h => h) (held τ1 _ (some (.unreg c 0 true)) (fun a h => h) rfl
    (by rintro d a hd hd'; cases hd; cases hd'; exact Or.inr ⟨0, _, p1, rfl⟩)) rfl
  have p2 : (τ1.go 0 (some (.unreg c 0 true))).pc 0 = some (.unreg c 0 true) := rfl
  have e2 : (τ1.go 0 (some (.unreg c 0 true))).ent = τ1.ent := rfl
  have z2 : (τ1.go 0 (some (.unreg c 0 true))).size = τ1.size := rfl
  have l2 : (τ1.go 0 (some (.unreg c 0 true))).live = τ1.live := rfl
  have c2 : (τ1.go 0 (some (.unreg c 0 true))).pc = upd τ1.pc 0 (some (.unreg c 0 true)) := rfl
  generalize τ1.go 0 (some (.unreg c 0 true)) = τ2 at q2 p2 e2 z2 l2 c2
  have a3 := Step.unregStore (once := once) p2
  have hn : ¬ c + (0 + 1) * MB2 < c + ({ τ2 with ent := upd τ2.ent ((c + 0 * MB2) / MB2) 0 } : S).size c := by
    show ¬ c + (0 + 1) * MB2 < c + τ2.size c
    rw [z2, z1, hs]; omega
  have en : S.unregNext { τ2 with ent := upd τ2.ent ((c + 0 * MB2) / MB2) 0 } 0 c (0 + 1) = _ := if_neg hn
  rw [en] at a3
  have q3 := hq _ _ _ q2 (.step a3) (fun a _ h => h) (held τ2 _ none (fun a h => h) rfl (by rintro d a hd; cases hd)) rfl
  refine ⟨_, q3, ?_, ?_, ?_, ?_⟩
  · show upd τ2.ent ((c + 0 * MB2) / MB2) 0 = _
    rw [idx, Nat.add_zero, e2, e1]
  · show τ2.size = _
    rw [z2, z1]
  · show upd τ2.pc 0 none = _
    funext u
    by_cases hu : u = 0
    · subst hu; rw [upd_same, h0]
    · rw [upd_ne hu, c2, upd_ne hu, c1, upd_ne hu]
  · intro a
    show τ2.live a ↔ _
    rw [l2, l1]

/-- The steps of another thread that keep the bloc. -/
theorem Seek.keep {once : Bool} {t p b : Nat} {s s' : S} {x : Option Nat} {u : Nat} (h : Seek once t p b s)
    (ha : Act once s u x s') (hu : t ≠ u) (hl : s'.live b) : Seek once t p b s' := by
  refine h.act ha ?_ hl
  rw [ha.other hu]
  cases h with
  | call _ _ _ _ =>
    rw [show ∀ s : S, (s.go t (some (.find p .e1))).pc t = some (.find p .e1) from fun s => upd_same _ _ _]
    exact fun h => by cases h
  | act _ _ h _ => exact h

/-- Two blocs of 2 MB, from 3 MB and from 5 MB: the entry of the addresses from 4 MB to 6 MB is that of the second. -/
theorem two_blocs (once : Bool) : ∃ s, Reach once s ∧ (∀ t, s.pc t = none) ∧ s.ent 1 = 3145728 ∧ s.ent 2 = 5242880 ∧
    s.size 3145728 = MB2 ∧ s.size 5242880 = MB2 ∧ (∀ a, s.live a ↔ a = 5242880 ∨ a = 3145728) := by
  obtain ⟨s1, r1, e1, z1, c1, l1⟩ := reg_one (once := once) (Q := Reach once) (c := 3145728) (s := start)
    (fun s s' x h ha _ => h.act ha) .start rfl (by decide)
    (by rintro a (h | ⟨u, d, hu, _⟩); · exact h.elim
        · cases hu) rfl
  obtain ⟨s2, r2, e2, z2, c2, l2⟩ := reg_one (once := once) (Q := Reach once) (c := 5242880) (s := s1)
    (fun s s' x h ha _ => h.act ha) r1 (by rw [c1]; rfl) (by decide)
    (by
      rintro a (h | ⟨u, d, hu, _⟩)
      · rcases (l1 a).1 h with rfl | h
        · right; rw [z1, upd_same]
        · exact h.elim
      · rw [c1] at hu; cases hu) (by rw [e1]; rfl)
  refine ⟨s2, r2, fun t => by rw [c2, c1]; rfl, by rw [e2, e1]; rfl, by rw [e2, e1]; rfl, by rw [z2, z1]; rfl, by rw [z2, z1]; rfl,
    fun a => ?_⟩
  rw [l2, l1]
  constructor
  · rintro (h | h | h)
    · exact Or.inl h
    · exact Or.inr h
    · exact h.elim
  · rintro (h | h)
    · exact Or.inl h
    · exact Or.inr (Or.inl h)

/-- C69 is false of the code as it is written: a search for the address 4.5 MB of a bloc that stays registered returns `NULL`,
or another bloc, when the bloc that shares the entry is removed between two reads of the entry (and registered again). The
address is then not freed, or freed into the wrong bloc. -/
theorem C69_refuted_race : ∃ t p b, MB2 < p ∧ (∃ s s', Seek false t p b s ∧ Step false s t (.ok (s', some 0))) ∧
    ∃ s s' c, c ≠ 0 ∧ c ≠ b ∧ Seek false t p b s ∧ Step false s t (.ok (s', some c)) := by
  refine ⟨1, 4718592, 3145728, by decide, ?_⟩
  obtain ⟨s, r, hp, e1, e2, z1, z2, hl⟩ := two_blocs false
  have k0 : Seek false 1 4718592 3145728 (s.go 1 (some (.find 4718592 .e1))) :=
    .call r (hp 1) ((hl _).2 (Or.inr rfl)) ⟨by decide, by rw [z1]; decide⟩
  have st0 : Find false (s.go 1 (some (.find 4718592 .e1))) 1 4718592 .e1 _ := Find.e1 rfl
  rw [if_neg (show ¬ (s.go 1 (some (.find 4718592 .e1))).ent (4718592 / MB2) = 0 from
    fun h => absurd (e2.symm.trans h) (by decide))] at st0
  have a0 := Act.step (Step.find rfl st0)
  have k1 := k0.act a0 (Option.some_ne_none _) ((hl _).2 (Or.inr rfl))
  have g1 : ((s.go 1 (some (.find 4718592 .e1))).go 1 (some (.find 4718592 .e2))).ent = s.ent := rfl
  have g2 : ((s.go 1 (some (.find 4718592 .e1))).go 1 (some (.find 4718592 .e2))).size = s.size := rfl
  have g3 : ((s.go 1 (some (.find 4718592 .e1))).go 1 (some (.find 4718592 .e2))).live = s.live := rfl
  have g4 : ((s.go 1 (some (.find 4718592 .e1))).go 1 (some (.find 4718592 .e2))).pc 1 = some (.find 4718592 .e2) := rfl
  have g5 : ∀ u, u ≠ 1 → ((s.go 1 (some (.find 4718592 .e1))).go 1 (some (.find 4718592 .e2))).pc u = none := by
    intro u hu
    show upd (upd s.pc 1 _) 1 _ u = none
    rw [upd_ne hu, upd_ne hu]; exact hp u
  generalize (s.go 1 (some (.find 4718592 .e1))).go 1 (some (.find 4718592 .e2)) = τ1 at k1 g1 g2 g3 g4 g5
  obtain ⟨τ2, k2, x1, x2, x3, x4⟩ := unreg_one (once := false) (Q := Seek false 1 4718592 3145728) (c := 5242880) (s := τ1)
    (fun s s' x h ha hl _ _ => h.keep ha (by decide) (hl _ (by decide) h.live)) k1 (g5 0 (by decide))
    (by rw [g3]; exact (hl _).2 (Or.inl rfl)) (by rw [g2]; exact z2) (by rw [g1]; exact e2)
  have st2 := Find.e2 (once := false) (s := τ2) (t := 1) (p := 4718592)
  rw [if_neg (show ¬ (τ2.ent (4718592 / MB2) > 4718592 ∧ 4718592 > MB2) by
    rw [x1]; exact fun h => absurd (show 0 > 4718592 from h.1) (by decide))] at st2
  have a2 := Act.step (Step.find (by rw [x3]; exact g4) st2)
  have k3 := k2.act a2 (Option.some_ne_none _) k2.live
  have y1 : (τ2.go 1 (some (.find 4718592 .e3))).ent = τ2.ent := rfl
  have y2 : (τ2.go 1 (some (.find 4718592 .e3))).size = τ2.size := rfl
  have y3 : (τ2.go 1 (some (.find 4718592 .e3))).live = τ2.live := rfl
  have y4 : (τ2.go 1 (some (.find 4718592 .e3))).pc 1 = some (.find 4718592 .e3) := rfl
  have y5 : ∀ u, u ≠ 1 → (τ2.go 1 (some (.find 4718592 .e3))).pc u = none := by
    intro u hu
    show upd τ2.pc 1 _ u = none
    rw [upd_ne hu, x3]; exact g5 u hu
  generalize τ2.go 1 (some (.find 4718592 .e3)) = τ3 at k3 y1 y2 y3 y4 y5
  constructor
  · have st3 := Find.e3 (once := false) (s := τ3) (t := 1) (p := 4718592)
    rw [show τ3.ent (4718592 / MB2) = 0 by rw [y1, x1]; rfl] at st3
    exact ⟨_, _, k3, .find y4 st3⟩
  · obtain ⟨τ4, k4, w1, _, w3, _⟩ := reg_one (once := false) (Q := Seek false 1 4718592 3145728) (c := 5242880) (s := τ3)
      (fun s s' x h ha hl => h.keep ha (by decide) (hl _ h.live)) k3 (y5 0 (by decide)) (by decide)
      (by
        rintro a (h | ⟨u, d, hu, hd⟩)
        · rw [y3] at h
          obtain ⟨h1, h2⟩ := (x4 a).1 h
          rw [g3] at h2
          rcases (hl a).1 h2 with rfl | rfl
          · exact absurd rfl h1
          · right; rw [y2, x2, g2, z1]
        · by_cases e : u = 1
          · subst e; rw [y4] at hu; cases hu; exact hd.elim
          · rw [y5 u e] at hu; cases hu) (by rw [y1, x1]; rfl)
    have st3 := Find.e3 (once := false) (s := τ4) (t := 1) (p := 4718592)
    rw [show τ4.ent (4718592 / MB2) = 5242880 by rw [w1]; rfl] at st3
    exact ⟨_, _, 5242880, by decide, by decide, k4, .find (by rw [w3]; exact y4) st3⟩

theorem Astray.here {once : Bool} {t p : Nat} {s : S} (h : Astray once t p s) : s.pc t ≠ none := by
  cases h with
  | call _ _ _ =>
    rw [show ∀ s : S, (s.go t (some (.find p .e1))).pc t = some (.find p .e1) from fun s => upd_same _ _ _]
    exact fun h => by cases h
  | act _ _ h _ => exact h

/-- A step of the search itself. -/
theorem Astray.step {once : Bool} {t p : Nat} {s : S} {c d : Spot} (h : Astray once t p s) (hc : s.pc t = some (.find p c))
    (hf : Find once s t p c (.ok (s.go t (some (.find p d)), none))) :
    Astray once t p (s.go t (some (.find p d))) ∧ (s.go t (some (.find p d))).pc t = some (.find p d) ∧
      (s.go t (some (.find p d))).ent = s.ent ∧ (s.go t (some (.find p d))).size = s.size ∧
      (s.go t (some (.find p d))).live = s.live ∧ (∀ u, u ≠ t → (s.go t (some (.find p d))).pc u = s.pc u) := by
  refine ⟨h.act (.step (.find hc hf)) ?_ ?_, upd_same _ _ _, rfl, rfl, rfl, fun u hu => upd_ne hu⟩
  · rw [show (s.go t (some (.find p d))).pc t = some (.find p d) from upd_same _ _ _]
    exact fun h => by cases h
  · intro b hb
    refine h.out b ((go_held ?_ ?_ b).1 hb)
    · intro b d h; rw [hc] at h; cases h; exact id
    · intro b d h; cases h; exact id

/-- C69: a search for an address in no bloc (memory that another allocator gave, which `free` is to leave) may fault, when the
bloc before the address is removed meanwhile: it reads the size in the header of `NULL`, or, when the reads of the entry are
one load, that of a bloc whose memory was given back. -/
theorem C69_refuted_fault (once : Bool) : ∃ t p s, MB2 < p ∧ Astray once t p s ∧ Step once s t .ub := by
  refine ⟨1, 7864320, ?_⟩
  obtain ⟨s, r, hp, e1, e2, z1, z2, hl⟩ := two_blocs once
  have e3 : s.ent 3 = 0 := by
    apply Classical.byContradiction
    intro h
    obtain ⟨h1, i, h2, h3⟩ := r.inv.own 3 h
    rcases h1 with h1 | ⟨u, c, hu, _⟩
    · rcases (hl _).1 h1 with h4 | h4 <;> rw [h4] at h2 h3 <;> simp only [z1, z2] at h2 <;> omega
    · rw [hp u] at hu; cases hu
  have k0 : Astray once 1 7864320 (s.go 1 (some (.find 7864320 .e1))) := by
    refine .call r (hp 1) ?_
    rintro b (h | ⟨u, c, hu, _⟩) hi
    · unfold S.In at hi
      rcases (hl _).1 h with rfl | rfl
      · rw [z2] at hi; omega
      · rw [z1] at hi; omega
    · rw [hp u] at hu; cases hu
  have g1 : (s.go 1 (some (.find 7864320 .e1))).ent = s.ent := rfl
  have g2 : (s.go 1 (some (.find 7864320 .e1))).size = s.size := rfl
  have g3 : (s.go 1 (some (.find 7864320 .e1))).live = s.live := rfl
  have g4 : (s.go 1 (some (.find 7864320 .e1))).pc 1 = some (.find 7864320 .e1) := rfl
  have g5 : ∀ u, u ≠ 1 → (s.go 1 (some (.find 7864320 .e1))).pc u = none := fun u hu => (upd_ne hu).trans (hp u)
  generalize s.go 1 (some (.find 7864320 .e1)) = τ0 at k0 g1 g2 g3 g4 g5
  have q3 : τ0.ent (7864320 / MB2) = 0 := by rw [g1]; exact e3
  have q2 : τ0.ent ((7864320 - MB2) / MB2) = 5242880 := by rw [g1]; exact e2
  have rm : ∀ τ : S, Astray once 1 7864320 τ → τ.pc 0 = none → τ.ent = s.ent → τ.size = s.size → τ.live = s.live →
      ∃ τ', Astray once 1 7864320 τ' ∧ τ'.ent = upd s.ent 2 0 ∧ τ'.pc = τ.pc ∧ ∀ a, τ'.live a ↔ a ≠ 5242880 ∧ s.live a := by
    intro τ k h0 h1 h2 h3
    obtain ⟨τ', y1, y2, _, y3, y4⟩ := unreg_one (once := once) (Q := Astray once 1 7864320) (c := 5242880) (s := τ)
      (fun s s' x h ha _ hh hz => by
        refine h.act ha ?_ ?_
        · rw [ha.other (by decide)]; exact h.here
        · intro b hb hi
          unfold S.In at hi
          rw [hz] at hi
          exact h.out b (hh b hb) hi) k h0 (by rw [h3]; exact (hl _).2 (Or.inl rfl)) (by rw [h2]; exact z2) (by rw [h1]; exact e2)
    exact ⟨τ', y1, by rw [y2, h1], y3, fun a => by rw [y4, h3]⟩
  cases once with
  | true =>
    have st0 : Find true τ0 1 7864320 .e1 _ := Find.e1_once rfl
    rw [if_pos ⟨Or.inl q3, by decide⟩] at st0
    obtain ⟨k1, p1, a1, b1, c1, d1⟩ := k0.step g4 st0
    generalize τ0.go 1 (some (.find 7864320 .f1)) = τ1 at k1 p1 a1 b1 c1 d1
    have st1 : Find true τ1 1 7864320 .f1 _ := Find.f1_once rfl
    rw [a1, q2, if_pos ⟨by decide, by decide⟩] at st1
    obtain ⟨k2, p2, a2, b2, c2, d2⟩ := k1.step p1 st1
    generalize τ1.go 1 (some (.find 7864320 (.g 5242880 5242880))) = τ2 at k2 p2 a2 b2 c2 d2
    obtain ⟨τ3, k3, w1, w2, w3⟩ := rm τ2 k2 (by rw [d2 0 (by decide), d1 0 (by decide), g5 0 (by decide)]) (by rw [a2, a1, g1])
      (by rw [b2, b1, g2]) (by rw [c2, c1, g3])
    refine ⟨τ3, by decide, k3, .find (by rw [w2]; exact p2) (.g_ub (Or.inr ?_))⟩
    rintro (h | ⟨u, c, hu, hc⟩)
    · exact ((w3 _).1 h).1 rfl
    · rw [w2] at hu
      by_cases e : u = 1
      · subst e; rw [p2] at hu; cases hu; exact hc
      · rw [d2 u e, d1 u e, g5 u e] at hu; cases hu
  | false =>
    have st0 : Find false τ0 1 7864320 .e1 _ := Find.e1 rfl
    rw [if_pos q3, if_pos (show 7864320 > MB2 by decide)] at st0
    obtain ⟨k1, p1, a1, b1, c1, d1⟩ := k0.step g4 st0
    generalize τ0.go 1 (some (.find 7864320 .f1)) = τ1 at k1 p1 a1 b1 c1 d1
    have st1 : Find false τ1 1 7864320 .f1 _ := Find.f1 rfl
    rw [a1, q2, if_neg (by decide)] at st1
    obtain ⟨k2, p2, a2, b2, c2, d2⟩ := k1.step p1 st1
    generalize τ1.go 1 (some (.find 7864320 .f2)) = τ2 at k2 p2 a2 b2 c2 d2
    have st2 := Find.f2 (once := false) (s := τ2) (t := 1) (p := 7864320)
    rw [a2, a1, q2, if_pos (by decide)] at st2
    obtain ⟨k3, p3, a3, b3, c3, d3⟩ := k2.step p2 st2
    generalize τ2.go 1 (some (.find 7864320 .f3)) = τ3 at k3 p3 a3 b3 c3 d3
    have st3 := Find.f3 (once := false) (s := τ3) (t := 1) (p := 7864320)
    obtain ⟨k4, p4, a4, b4, c4, d4⟩ := k3.step p3 st3
    generalize τ3.go 1 (some (.find 7864320 (.f4 (τ3.ent ((7864320 - MB2) / MB2))))) = τ4 at k4 p4 a4 b4 c4 d4
    obtain ⟨τ5, k5, w1, w2, w3⟩ := rm τ4 k4
      (by rw [d4 0 (by decide), d3 0 (by decide), d2 0 (by decide), d1 0 (by decide), g5 0 (by decide)])
      (by rw [a4, a3, a2, a1, g1]) (by rw [b4, b3, b2, b1, g2]) (by rw [c4, c3, c2, c1, g3])
    have st5 := Find.f4 (once := false) (s := τ5) (t := 1) (p := 7864320) (b := τ3.ent ((7864320 - MB2) / MB2))
    rw [show τ5.ent ((7864320 - MB2) / MB2) = 0 by rw [w1]; rfl] at st5
    obtain ⟨k6, p6, _⟩ := k5.step (by rw [w2]; exact p4) st5
    exact ⟨_, by decide, k6, .find p6 (.g_ub (Or.inl rfl))⟩

/-- The hypotheses: with two blocs registered, a search for an address of the first one begins; its address is in the entry
that the second one has. -/
example : ∃ s, Seek true 1 4718592 3145728 s ∧ s.live 5242880 ∧ s.ent (4718592 / MB2) = 5242880 := by
  obtain ⟨s, r, hp, e1, e2, z1, z2, hl⟩ := two_blocs true
  exact ⟨_, .call r (hp 1) ((hl _).2 (Or.inr rfl)) ⟨by decide, by rw [z1]; decide⟩, (hl _).2 (Or.inl rfl), e2⟩

end RegionSearch
end MpcAlloc
