import Verif.Pagemap

/-!
C80: the page map file is opened once, used only while it is open, and each thread reads the entries it asked for.
-/

namespace MpcAlloc.Pagemap

/-- Places of the code under the lock. -/
def PC.Holds : PC → Prop
  | .oBody | .oMark | .oUnlock | .rSeek _ _ | .rRead _ _ | .rUnlock | .xBody | .xClear | .xUnlock => True
  | _ => False

/-- Places of the end of the process. -/
def PC.Exit : PC → Prop
  | .xLock | .xBody | .xClear | .xUnlock => True
  | _ => False

/-- Invariant of all runs. -/
structure Inv (s : St) : Prop where
  lock : ∀ t, (s.pc t).Holds → s.lock = some t
  read : ∀ t a n, s.pc t = .rRead a n → ∀ k, s.fp = .file k → s.pos k = a
  got : ∀ e ∈ s.got, e.2.2.2 = e.2.1

/-- Invariant of the runs without the end of the process. -/
structure InvO (s : St) : Prop where
  noExit : ∀ t, ¬ (s.pc t).Exit
  fresh : s.fp = .null → s.opened = 0
  once : s.opened ≤ 1
  isOpen : ∀ k, s.fp = .file k → s.isOpen k = true
  inited : ∀ t, s.inited t = true → s.fp ≠ .null
  mark : ∀ t, s.pc t = .oMark → s.fp = .null
  unlock : ∀ t, s.pc t = .oUnlock → s.fp ≠ .null
  rChk : ∀ t a n, s.pc t = .rChk a n → s.fp ≠ .null
  file : ∀ t a n, (s.pc t = .rLock a n ∨ s.pc t = .rSeek a n ∨ s.pc t = .rRead a n) → ∃ k, s.fp = .file k

@[simp] theorem go_self (s : St) (t : Nat) (p : PC) : (s.go t p).pc t = p := by simp [St.go]
theorem go_other {s : St} {t u : Nat} {p : PC} (h : u ≠ t) : (s.go t p).pc u = s.pc u := by simp [St.go, h]
theorem use_ok {s : St} {k : Nat} (h : s.use = .ok k) : s.fp = .file k ∧ s.isOpen k = true := by
  unfold St.use at h
  split at h
  · split at h
    · rename_i _ e1 e2
      cases h
      exact ⟨e1, e2⟩
    · cases h
  · cases h

theorem Inv.go {s : St} (I : Inv s) {t : Nat} (hi : s.pc t = .idle) {p : PC} (h1 : ¬ p.Holds) : Inv (s.go t p) := by
  refine ⟨fun u hu => ?_, fun u a n hu => ?_, I.got⟩
  · by_cases e : u = t
    · subst e; rw [go_self] at hu; exact absurd hu h1
    · rw [go_other e] at hu; exact I.lock u hu
  · by_cases e : u = t
    · subst e; rw [go_self] at hu; rw [hu] at h1; exact absurd trivial h1
    · rw [go_other e] at hu; exact I.read u a n hu

/-- A step of a thread that has the lock, or that changes neither the lock nor the file. -/
theorem Inv.move {s s' : St} (I : Inv s) {t : Nat} {p : PC} (hpc : s'.pc = Function.update s.pc t p)
    (hl : (p.Holds ∧ s'.lock = some t ∧ (s.lock = some t ∨ s.lock = none)) ∨
      (¬ p.Holds ∧ (s'.lock = s.lock ∨ (s.lock = some t ∧ s'.lock = none))))
    (hf : (s'.fp = s.fp ∧ s'.pos = s.pos) ∨ s.lock = some t)
    (hr : ∀ a n, p = .rRead a n → ∀ k, s'.fp = .file k → s'.pos k = a) (hg : ∀ e ∈ s'.got, e.2.2.2 = e.2.1) : Inv s' := by
  have own : ∀ u, u ≠ t → (s.pc u).Holds → s.lock ≠ some t ∧ s.lock ≠ none := by
    intro u hu h
    have := I.lock u h
    rw [this]
    exact ⟨fun h => hu (Option.some.inj h), fun h => by cases h⟩
  refine ⟨fun u hu => ?_, fun u a n hu k hk => ?_, hg⟩
  · rw [hpc] at hu
    by_cases e : u = t
    · subst e
      rw [Function.update_self] at hu
      rcases hl with h | h
      · exact h.2.1
      · exact absurd hu h.1
    · rw [Function.update_of_ne e] at hu
      have ho := own u e hu
      rcases hl with ⟨_, _, h | h⟩ | ⟨_, h | h⟩
      · exact absurd h ho.1
      · exact absurd h ho.2
      · rw [h]; exact I.lock u hu
      · exact absurd h.1 ho.1
  · rw [hpc] at hu
    by_cases e : u = t
    · subst e
      rw [Function.update_self] at hu
      exact hr a n hu k hk
    · rw [Function.update_of_ne e] at hu
      rcases hf with ⟨h1, h2⟩ | h
      · rw [h2]; exact I.read u a n hu k (h1 ▸ hk)
      · exact absurd h (own u e (by rw [hu]; trivial)).1

theorem Inv.step {s s' : St} (I : Inv s) {t : Nat} {ok : Bool} (e : stepAt s t ok = .ok s') : Inv s' := by
  have ht := I.lock t
  unfold stepAt at e
  split at e
  case h_1 => obtain rfl := Outcome.ok.inj e; exact I
  case h_2 h =>
    split at e <;> obtain rfl := Outcome.ok.inj e
    · exact I.move rfl (Or.inr ⟨id, Or.inl rfl⟩) (Or.inl ⟨rfl, rfl⟩) (fun _ _ h => by cases h) I.got
    · exact I.move rfl (Or.inr ⟨id, Or.inl rfl⟩) (Or.inl ⟨rfl, rfl⟩) (fun _ _ h => by cases h) I.got
  case h_3 h =>
    split at e <;> obtain rfl := Outcome.ok.inj e
    · rename_i hl
      exact I.move rfl (Or.inl ⟨trivial, rfl, Or.inr hl⟩) (Or.inl ⟨rfl, rfl⟩) (fun _ _ h => by cases h) I.got
    · exact I
  case h_4 h =>
    have hl := ht (by rw [h]; trivial)
    split at e
    · split at e <;> obtain rfl := Outcome.ok.inj e
      · exact I.move rfl (Or.inl ⟨trivial, hl, Or.inl hl⟩) (Or.inr hl) (fun _ _ h => by cases h) I.got
      · exact I.move rfl (Or.inl ⟨trivial, hl, Or.inl hl⟩) (Or.inr hl) (fun _ _ h => by cases h) I.got
    · obtain rfl := Outcome.ok.inj e
      exact I.move rfl (Or.inl ⟨trivial, hl, Or.inl hl⟩) (Or.inr hl) (fun _ _ h => by cases h) I.got
  case h_5 h =>
    have hl := ht (by rw [h]; trivial)
    obtain rfl := Outcome.ok.inj e
    exact I.move rfl (Or.inl ⟨trivial, hl, Or.inl hl⟩) (Or.inr hl) (fun _ _ h => by cases h) I.got
  case h_6 h =>
    have hl := ht (by rw [h]; trivial)
    obtain rfl := Outcome.ok.inj e
    exact I.move rfl (Or.inr ⟨id, Or.inr ⟨hl, rfl⟩⟩) (Or.inr hl) (fun _ _ h => by cases h) I.got
  case h_7 h =>
    split at e <;> obtain rfl := Outcome.ok.inj e
    · exact I.move rfl (Or.inr ⟨id, Or.inl rfl⟩) (Or.inl ⟨rfl, rfl⟩) (fun _ _ h => by cases h) I.got
    · exact I.move rfl (Or.inr ⟨id, Or.inl rfl⟩) (Or.inl ⟨rfl, rfl⟩) (fun _ _ h => by cases h) I.got
  case h_8 h =>
    split at e <;> obtain rfl := Outcome.ok.inj e
    · rename_i hl
      exact I.move rfl (Or.inl ⟨trivial, rfl, Or.inr hl⟩) (Or.inl ⟨rfl, rfl⟩) (fun _ _ h => by cases h) I.got
    · exact I
  case h_9 a n h =>
    have hl := ht (by rw [h]; trivial)
    obtain ⟨k, hk, e⟩ := Outcome.bind_eq_ok e
    obtain rfl := Outcome.ok.inj e
    refine I.move rfl (Or.inl ⟨trivial, hl, Or.inl hl⟩) (Or.inr hl) (fun a' n' h k' hk' => ?_) I.got
    obtain ⟨rfl, rfl⟩ := PC.rRead.inj h
    have hk' : s.fp = .file k' := hk'
    obtain rfl : k = k' := File.file.inj ((use_ok hk).1.symm.trans hk')
    exact Function.update_self ..
  case h_10 a n h =>
    have hl := ht (by rw [h]; trivial)
    obtain ⟨k, hk, e⟩ := Outcome.bind_eq_ok e
    obtain rfl := Outcome.ok.inj e
    refine I.move rfl (Or.inl ⟨trivial, hl, Or.inl hl⟩) (Or.inr hl) (fun _ _ h => by cases h) (fun x hx => ?_)
    rcases List.mem_cons.1 hx with rfl | hx
    · exact I.read t a n h k (use_ok hk).1
    · exact I.got x hx
  case h_11 h =>
    have hl := ht (by rw [h]; trivial)
    obtain rfl := Outcome.ok.inj e
    exact I.move rfl (Or.inr ⟨id, Or.inr ⟨hl, rfl⟩⟩) (Or.inr hl) (fun _ _ h => by cases h) I.got
  case h_12 h =>
    split at e <;> obtain rfl := Outcome.ok.inj e
    · rename_i hl
      exact I.move rfl (Or.inl ⟨trivial, rfl, Or.inr hl⟩) (Or.inl ⟨rfl, rfl⟩) (fun _ _ h => by cases h) I.got
    · exact I
  case h_13 h =>
    have hl := ht (by rw [h]; trivial)
    split at e
    · obtain rfl := Outcome.ok.inj e
      exact I.move rfl (Or.inl ⟨trivial, hl, Or.inl hl⟩) (Or.inr hl) (fun _ _ h => by cases h) I.got
    · obtain ⟨k, hk, e⟩ := Outcome.bind_eq_ok e
      obtain rfl := Outcome.ok.inj e
      exact I.move rfl (Or.inl ⟨trivial, hl, Or.inl hl⟩) (Or.inr hl) (fun _ _ h => by cases h) I.got
  case h_14 h =>
    have hl := ht (by rw [h]; trivial)
    obtain rfl := Outcome.ok.inj e
    exact I.move rfl (Or.inl ⟨trivial, hl, Or.inl hl⟩) (Or.inr hl) (fun _ _ h => by cases h) I.got
  case h_15 h =>
    have hl := ht (by rw [h]; trivial)
    obtain rfl := Outcome.ok.inj e
    exact I.move rfl (Or.inr ⟨id, Or.inr ⟨hl, rfl⟩⟩) (Or.inr hl) (fun _ _ h => by cases h) I.got

theorem Run.inv {X : Bool} {s : St} (h : Run X s) : Inv s := by
  induction h with
  | start => exact ⟨fun _ h => absurd h id, fun _ _ _ h => (by cases h), fun _ h => (by cases h)⟩
  | init t _ hi ih => exact ih.go hi id
  | read t a n _ hi _ ih => exact ih.go hi id
  | exit t _ hi _ _ ih => exact ih.go hi id
  | step t ok _ e ih => exact ih.step e

/-- A step that keeps the file, or sets it for the first time. -/
theorem InvO.move {s s' : St} (I : InvO s) {t : Nat} {p : PC} (hpc : s'.pc = Function.update s.pc t p) (hx : ¬ p.Exit)
    (hf : (s'.fp = s.fp ∧ s'.opened = s.opened ∧ s'.isOpen = s.isOpen) ∨
      (s.fp = .null ∧ s'.fp ≠ .null ∧ (∀ u, u ≠ t → s.pc u ≠ .oMark) ∧ s'.opened ≤ 1 ∧
        ∀ k, s'.fp = .file k → s'.isOpen k = true))
    (hi : ∀ u, s'.inited u = true → s.inited u = true ∨ s'.fp ≠ .null) (hm : p = .oMark → s'.fp = .null)
    (hu : p = .oUnlock → s'.fp ≠ .null) (hc : ∀ a n, p = .rChk a n → s'.fp ≠ .null)
    (hfile : ∀ a n, p = .rLock a n ∨ p = .rSeek a n ∨ p = .rRead a n → ∃ k, s'.fp = .file k) : InvO s' := by
  have hnn : s.fp ≠ .null → s'.fp = s.fp := fun h => by
    rcases hf with h' | h'
    · exact h'.1
    · exact absurd h'.1 h
  have at_ : ∀ u (Q : PC → Prop), Q (s'.pc u) → (u = t ∧ Q p) ∨ (u ≠ t ∧ Q (s.pc u)) := by
    intro u Q h
    rw [hpc] at h
    by_cases e : u = t
    · subst e; rw [Function.update_self] at h; exact Or.inl ⟨rfl, h⟩
    · rw [Function.update_of_ne e] at h; exact Or.inr ⟨e, h⟩
  refine ⟨fun u h => ?_, fun h => ?_, ?_, fun k hk => ?_, fun u h => ?_, fun u h => ?_, fun u h => ?_, fun u a n h => ?_,
    fun u a n h => ?_⟩
  · rcases at_ u PC.Exit h with h | h
    · exact hx h.2
    · exact I.noExit u h.2
  · rcases hf with ⟨h1, h2, _⟩ | h'
    · rw [h2]; exact I.fresh (h1 ▸ h)
    · exact absurd h h'.2.1
  · rcases hf with ⟨_, h2, _⟩ | h'
    · rw [h2]; exact I.once
    · exact h'.2.2.2.1
  · rcases hf with ⟨h1, _, h3⟩ | h'
    · rw [h3]; exact I.isOpen k (h1 ▸ hk)
    · exact h'.2.2.2.2 k hk
  · rcases hi u h with h | h
    · have := I.inited u h; rw [hnn this]; exact this
    · exact h
  · rcases at_ u (fun q => q = .oMark) h with h | h
    · exact hm h.2
    · rcases hf with ⟨h1, _⟩ | h'
      · rw [h1]; exact I.mark u h.2
      · exact absurd h.2 (h'.2.2.1 u h.1)
  · rcases at_ u (fun q => q = .oUnlock) h with h | h
    · exact hu h.2
    · have := I.unlock u h.2; rw [hnn this]; exact this
  · rcases at_ u (fun q => q = .rChk a n) h with h | h
    · exact hc a n h.2
    · have := I.rChk u a n h.2; rw [hnn this]; exact this
  · rcases at_ u (fun q => q = .rLock a n ∨ q = .rSeek a n ∨ q = .rRead a n) h with h | h
    · exact hfile a n h.2
    · obtain ⟨k, hk⟩ := I.file u a n h.2
      exact ⟨k, by rw [hnn (by rw [hk]; exact fun h => by cases h)]; exact hk⟩

theorem InvO.use {s : St} (I : InvO s) {t a n : Nat} (h : s.pc t = .rSeek a n ∨ s.pc t = .rRead a n) :
    ∃ k, s.use = .ok k := by
  obtain ⟨k, hk⟩ := I.file t a n (Or.inr h)
  refine ⟨k, ?_⟩
  unfold St.use
  rw [hk]
  exact if_pos (I.isOpen k hk)

theorem InvO.step {s : St} (J : Inv s) (I : InvO s) (t : Nat) (ok : Bool) : ∃ s', stepAt s t ok = .ok s' ∧ InvO s' := by
  have same : ∀ {s' : St} {p : PC}, s'.pc = Function.update s.pc t p → ¬ p.Exit → s'.fp = s.fp → s'.opened = s.opened →
      s'.isOpen = s.isOpen → s'.inited = s.inited → p ≠ .oMark → (p = .oUnlock → s.fp ≠ .null) →
      (∀ a n, p ≠ .rChk a n) → (∀ a n, p = .rLock a n ∨ p = .rSeek a n ∨ p = .rRead a n → ∃ k, s.fp = .file k) → InvO s' := by
    intro s' p h1 h2 h3 h4 h5 h6 h7 h8 h9 h10
    exact I.move h1 h2 (Or.inl ⟨h3, h4, h5⟩) (fun u hu => Or.inl (by rw [← h6]; exact hu)) (fun h => absurd h h7)
      (fun h => by rw [h3]; exact h8 h) (fun a n h => absurd h (h9 a n)) (fun a n h => by rw [h3]; exact h10 a n h)
  have nx := I.noExit t
  unfold stepAt
  split
  case h_1 => exact ⟨s, rfl, I⟩
  case h_2 h =>
    by_cases hf : s.fp = .null
    · rw [if_pos hf]
      exact ⟨_, rfl, same (p := .oLock) rfl id rfl rfl rfl rfl (by simp) (by simp) (by simp) (by simp)⟩
    · rw [if_neg hf]
      refine ⟨_, rfl, I.move (p := .idle) rfl id (Or.inl ⟨rfl, rfl, rfl⟩) (fun u _ => Or.inr hf) (by simp) (by simp) (by simp) (by simp)⟩
  case h_3 h =>
    by_cases hl : s.lock = none
    · rw [if_pos hl]
      exact ⟨_, rfl, same (p := .oBody) rfl id rfl rfl rfl rfl (by simp) (by simp) (by simp) (by simp)⟩
    · rw [if_neg hl]; exact ⟨s, rfl, I⟩
  case h_4 h =>
    by_cases hf : s.fp = .null
    · rw [if_pos hf]
      cases ok with
      | true =>
        rw [if_pos rfl]
        refine ⟨_, rfl, I.move (p := .oUnlock) rfl id (Or.inr ⟨hf, by simp, ?_, ?_, ?_⟩) (fun u _ => Or.inr (by simp)) (by simp)
          (by simp) (by simp) (by simp)⟩
        · intro u hu hm
          have h1 := J.lock t (by rw [h]; trivial)
          have h2 := J.lock u (by rw [hm]; trivial)
          exact hu (Option.some.inj (h2.symm.trans h1))
        · simp [I.fresh hf]
        · intro k hk
          have hk : File.file s.opened = .file k := hk
          obtain rfl := File.file.inj hk
          exact Function.update_self ..
      | false =>
        rw [if_neg (by simp)]
        exact ⟨_, rfl, I.move (p := .oMark) rfl id (Or.inl ⟨rfl, rfl, rfl⟩) (fun u h => Or.inl h) (fun _ => hf) (by simp) (by simp)
          (by simp)⟩
    · rw [if_neg hf]
      exact ⟨_, rfl, same (p := .oUnlock) rfl id rfl rfl rfl rfl (by simp) (fun _ => hf) (by simp) (by simp)⟩
  case h_5 h =>
    have hf := I.mark t h
    refine ⟨_, rfl, I.move (p := .oUnlock) rfl id (Or.inr ⟨hf, by simp, ?_, I.once, by simp⟩) (fun u _ => Or.inr (by simp)) (by simp)
      (by simp) (by simp) (by simp)⟩
    intro u hu hm
    have h1 := J.lock t (by rw [h]; trivial)
    have h2 := J.lock u (by rw [hm]; trivial)
    exact hu (Option.some.inj (h2.symm.trans h1))
  case h_6 h =>
    exact ⟨_, rfl, I.move (p := .idle) rfl id (Or.inl ⟨rfl, rfl, rfl⟩) (fun u _ => Or.inr (I.unlock t h)) (by simp) (by simp)
      (by simp) (by simp)⟩
  case h_7 a n h =>
    have hn := I.rChk t a n h
    by_cases hf : s.fp = .notAvail
    · rw [if_pos hf]
      exact ⟨_, rfl, same (p := .idle) rfl id rfl rfl rfl rfl (by simp) (by simp) (by simp) (by simp)⟩
    · rw [if_neg hf]
      refine ⟨_, rfl, same (p := .rLock a n) rfl id rfl rfl rfl rfl (by simp) (by simp) (by simp) (fun _ _ _ => ?_)⟩
      cases hq : s.fp with
      | null => exact absurd hq hn
      | notAvail => exact absurd hq hf
      | file k => exact ⟨k, rfl⟩
  case h_8 a n h =>
    by_cases hl : s.lock = none
    · rw [if_pos hl]
      exact ⟨_, rfl, same (p := .rSeek a n) rfl id rfl rfl rfl rfl (by simp) (by simp) (by simp) (fun _ _ _ => I.file t a n (Or.inl h))⟩
    · rw [if_neg hl]; exact ⟨s, rfl, I⟩
  case h_9 a n h =>
    obtain ⟨k, hk⟩ := I.use (Or.inl h)
    rw [hk, Outcome.ok_bind]
    exact ⟨_, rfl, same (p := .rRead a n) rfl id rfl rfl rfl rfl (by simp) (by simp) (by simp)
      (fun _ _ _ => I.file t a n (Or.inr (Or.inl h)))⟩
  case h_10 a n h =>
    obtain ⟨k, hk⟩ := I.use (Or.inr h)
    rw [hk, Outcome.ok_bind]
    exact ⟨_, rfl, same (p := .rUnlock) rfl id rfl rfl rfl rfl (by simp) (by simp) (by simp) (by simp)⟩
  case h_11 h =>
    exact ⟨_, rfl, same (p := .idle) rfl id rfl rfl rfl rfl (by simp) (by simp) (by simp) (by simp)⟩
  case h_12 h => rw [h] at nx; exact absurd trivial nx
  case h_13 h => rw [h] at nx; exact absurd trivial nx
  case h_14 h => rw [h] at nx; exact absurd trivial nx
  case h_15 h => rw [h] at nx; exact absurd trivial nx

theorem InvO.go {s : St} (I : InvO s) {t : Nat} {p : PC} (hp : p = .chk ∨ ∃ a n, p = .rChk a n ∧ s.inited t = true) :
    InvO (s.go t p) := by
  refine I.move (p := p) rfl ?_ (Or.inl ⟨rfl, rfl, rfl⟩) (fun u h => Or.inl h) ?_ ?_ ?_ ?_
  all_goals rcases hp with rfl | ⟨a, n, rfl, hi⟩
  any_goals exact id
  any_goals simp
  exact I.inited t hi

theorem Run.invO {s : St} (h : Run false s) : InvO s := by
  induction h with
  | start =>
    exact ⟨fun _ => id, fun _ => rfl, Nat.zero_le _, fun _ h => (by cases h), fun _ h => (by cases h), fun _ h => (by cases h),
      fun _ h => (by cases h), fun _ _ _ h => (by cases h), fun _ _ _ h => (by rcases h with h | h | h <;> cases h)⟩
  | init t _ _ ih => exact ih.go (Or.inl rfl)
  | read t a n _ _ hi ih => exact ih.go (Or.inr ⟨a, n, rfl, hi⟩)
  | exit t _ _ hX _ => cases hX
  | step t ok hr e ih =>
    obtain ⟨s', e', I'⟩ := ih.step hr.inv t ok
    obtain rfl := Outcome.ok.inj (e.symm.trans e')
    exact I'

/-- C80, the lock: at most one thread is in the code that it protects, also when the process ends meanwhile. -/
theorem C80_one_inside {X : Bool} {s : St} (h : Run X s) {t u : Nat} (ht : (s.pc t).Holds) (hu : (s.pc u).Holds) : t = u :=
  Option.some.inj ((h.inv.lock t ht).symm.trans (h.inv.lock u hu))

/-- C80, the entries: what a thread has read starts at the entry that it asked for, whatever the other threads read. -/
theorem C80_range {X : Bool} {s : St} (h : Run X s) : ∀ t a n p, (t, a, n, p) ∈ s.got → p = a :=
  fun _ _ _ _ hm => h.inv.got _ hm

/-- C80, the file, as long as the process does not end: it is opened at most once, and no step uses a file that is not
open. Missing: the end of the process (`C80_exit_refuted`). -/
theorem C80_open_partial {s : St} (h : Run false s) :
    s.opened ≤ 1 ∧ ∀ t ok, ∃ s', stepAt s t ok = .ok s' :=
  ⟨h.invO.once, fun t ok => let ⟨s', e, _⟩ := h.invO.step h.inv t ok; ⟨s', e⟩⟩

/-- Steps of a schedule. -/
def steps (s : St) : List (Nat × Bool) → Outcome St
  | [] => .ok s
  | (t, ok) :: l => stepAt s t ok >>= fun s => steps s l

theorem run_steps {X : Bool} {s s' : St} (l : List (Nat × Bool)) (h : Run X s) (e : steps s l = .ok s') : Run X s' := by
  induction l generalizing s with
  | nil => obtain rfl := Outcome.ok.inj e; exact h
  | cons a l ih =>
    obtain ⟨s1, e1, e2⟩ := Outcome.bind_eq_ok e
    exact ih (.step a.1 a.2 h e1) e2

/-- Thread 0 has initialised, and the file is open. -/
def s1 : St :=
  { fp := .file 0, opened := 1, isOpen := Function.update (fun _ => false) 0 true, pos := fun _ => 0, lock := none
    pc := Function.update (Function.update (Function.update (Function.update (Function.update (fun _ => .idle) 0 .chk) 0 .oLock) 0 .oBody)
      0 .oUnlock) 0 .idle
    inited := Function.update (fun _ => false) 0 true, got := [] }

theorem run_s1 (X : Bool) : Run X s1 :=
  run_steps [(0, true), (0, true), (0, true), (0, true)] (.init 0 .start rfl) rfl

/-- C80, the end of the process: thread 0 has seen that the file is there, thread 1 ends the process and closes the file, and
thread 0 then calls `fseek` with NULL. -/
theorem C80_exit_refuted : ∃ s t ok, Run true s ∧ stepAt s t ok = .ub := by
  have h1 : Run true ((s1.go 0 (.rChk 5 2)).go 0 (.rLock 5 2)) :=
    .step 0 true (.read 0 5 2 (run_s1 true) rfl rfl) rfl
  have h2 : Run true (((s1.go 0 (.rChk 5 2)).go 0 (.rLock 5 2)).go 1 .xLock) := .exit 1 h1 rfl rfl Nat.one_pos
  obtain ⟨s, e, hs⟩ : ∃ s, steps (((s1.go 0 (.rChk 5 2)).go 0 (.rLock 5 2)).go 1 .xLock)
      [(1, true), (1, true), (1, true), (1, true), (0, true)] = .ok s ∧ stepAt s 0 true = .ub := ⟨_, rfl, rfl⟩
  exact ⟨s, 0, true, run_steps _ h2 e, hs⟩

/-- C80, opened once: a thread that initialises after the handler opens the file again. -/
theorem C80_once_refuted : ∃ s, Run true s ∧ s.opened = 2 := by
  have h2 : Run true (s1.go 1 .xLock) := .exit 1 (run_s1 true) rfl rfl Nat.one_pos
  obtain ⟨s, e, hs⟩ : ∃ s, steps (s1.go 1 .xLock) [(1, true), (1, true), (1, true), (1, true)] = .ok s ∧
    s.pc 2 = .idle ∧ ∃ s', steps (s.go 2 .chk) [(2, true), (2, true), (2, true)] = .ok s' ∧ s'.opened = 2 :=
    ⟨_, rfl, rfl, _, rfl, rfl⟩
  obtain ⟨hi, s', e', ho⟩ := hs
  exact ⟨s', run_steps _ (.init 2 (run_steps _ h2 e) hi) e', ho⟩

/-- The theorems speak of such runs: two threads read, and their steps interleave. -/
example : ∃ s, Run false s ∧ s.got = [(1, 9, 3, 9), (0, 5, 2, 5)] := by
  have h1 : Run false (s1.go 0 (.rChk 5 2)) := .read 0 5 2 (run_s1 false) rfl rfl
  have h2 : Run false ((s1.go 0 (.rChk 5 2)).go 1 .chk) := .init 1 h1 rfl
  obtain ⟨s, e, hs⟩ : ∃ s, steps ((s1.go 0 (.rChk 5 2)).go 1 .chk) [(0, true), (1, true)] = .ok s ∧
    (s.pc 1 = .idle ∧ s.inited 1 = true) ∧ ∃ s', steps (s.go 1 (.rChk 9 3))
      [(0, true), (1, true), (1, true), (0, true), (0, true), (0, true), (1, true), (1, true), (1, true), (1, true)] = .ok s' ∧
      s'.got = [(1, 9, 3, 9), (0, 5, 2, 5)] := ⟨_, rfl, ⟨rfl, rfl⟩, _, rfl, rfl⟩
  obtain ⟨⟨hi, hin⟩, s', e', ho⟩ := hs
  exact ⟨s', run_steps _ (.read 1 9 3 (run_steps _ h2 e) hi hin) e', ho⟩

/-- The lock is met: a thread is at a place under it. -/
example : ∃ s, Run true s ∧ (s.pc 0).Holds := by
  obtain ⟨s, e, hs⟩ : ∃ s, steps (St.start.go 0 .chk) [(0, true), (0, true)] = .ok s ∧ s.pc 0 = .oBody := ⟨_, rfl, rfl⟩
  exact ⟨s, run_steps _ (.init 0 .start rfl) e, by rw [hs]; trivial⟩

end MpcAlloc.Pagemap
