import Verif.QueueTso

/-
Property C64: the remote free queue on machines that delay the stores of a thread. The machine of QueueTso.lean is
simulated by the sequentially consistent one of Queue.lean; without the order of the stores before the swaps the
property is false.
-/

namespace MpcAlloc
namespace QueueTso

open Queue (PPC CPC upd upd_same upd_ne ofThread ofThread_append)

/-! ## Simulation -/

theorem absP_swap {p : PPC} {b : List W} {e : Nat} (h : absP p b = .swap e) : p = .swap e ∧ b = [] := by
  cases b with
  | nil => cases p <;> simp_all [absP]
  | cons w l => cases w <;> cases p <;> simp_all [absP]

theorem absP_clear {p : PPC} {b : List W} {e : Nat} (h : absP p b = .clear e) : False := by
  cases b with
  | nil => cases p <;> simp_all [absP]
  | cons w l => cases w <;> cases p <;> simp_all [absP]

theorem R.flight {τ : T} {s : Queue.S} (h : R τ s) {a : Nat} (hf : Queue.InFlight s a) :
    (∃ u, τ.pc u = .swap a ∧ τ.buf u = []) ∨ a ∈ rest τ := by
  rcases hf with ⟨u, hu | hu⟩ | hr
  · rw [h.prod] at hu; exact (absP_clear hu).elim
  · rw [h.prod] at hu; exact Or.inl ⟨u, absP_swap hu⟩
  · rw [h.pushed, h.out] at hr; exact Or.inr hr

theorem ofThread_one {t u e : Nat} (h : u ≠ t) : ofThread u [(t, e)] = [] := by
  unfold ofThread
  rw [List.filter_cons_of_neg (by simpa using fun h' => h h'.symm)]; rfl

theorem ofThread_self (t e : Nat) : ofThread t [(t, e)] = [e] := by simp [ofThread]

theorem R_init (next : Nat → Nat) : R (init next) (Queue.init next) :=
  ⟨rfl, rfl, rfl, fun _ => rfl, rfl, rfl, rfl, fun _ => rfl⟩

theorem R_start {τ : T} {s : Queue.S} (h : R τ s) {t e : Nat} (h1 : τ.pc t = .idle) :
    R { τ with pc := upd τ.pc t (.clear e), calls := τ.calls ++ [(t, e)] } s := by
  refine ⟨h.head, h.tail, h.next, fun u => ?_, h.cons, h.pushed, h.out, fun u => ?_⟩
  · by_cases hu : u = t
    · subst hu; simp only [upd_same]; rw [h.prod u, h1]
      cases hb : τ.buf u with
      | nil => rfl
      | cons w l => cases w <;> rfl
    · simp only [upd_ne hu]; exact h.prod u
  · simp only [ofThread_append]
    rw [h.calls u]
    by_cases hu : u = t
    · subst hu; rw [upd_same, h1, ofThread_self]; simp [pendC]
    · rw [upd_ne hu, ofThread_one hu]; simp

theorem R_prod {τ : T} {s : Queue.S} (H : J τ) (hs : Queue.Reach s) (h : R τ s) (t : Nat) :
    ∃ s', Queue.Reach s' ∧ R (pstep true τ t) s' := by
  unfold pstep
  cases hp : τ.pc t with
  | idle => exact ⟨s, hs, h⟩
  | clear e =>
    refine ⟨s, hs, h.head, h.tail, h.next, fun u => ?_, h.cons, h.pushed, h.out, fun u => ?_⟩
    · by_cases hu : u = t
      · subst hu; simp only [upd_same]; rw [h.prod u, hp]
        cases hb : τ.buf u with
        | nil => rfl
        | cons w l => cases w <;> rfl
      · simp only [upd_ne hu]; exact h.prod u
    · by_cases hu : u = t
      · subst hu; simp only [upd_same]; rw [h.calls u, hp]
        cases hb : τ.buf u <;> rfl
      · simp only [upd_ne hu]; exact h.calls u
  | swap e =>
    simp only [true_and]
    split
    · exact ⟨s, hs, h⟩
    · rename_i hb
      rw [not_not] at hb
      have hq : s.prod t = .swap e := by rw [h.prod, hp, hb]; rfl
      refine ⟨Queue.pstep s t, hs.prod t, ?_⟩
      unfold Queue.pstep
      rw [hq]
      refine ⟨h.head, rfl, h.next, fun u => ?_, h.cons, by simp only [h.pushed], h.out, fun u => ?_⟩
      · by_cases hu : u = t
        · subst hu; simp only [upd_same, hb, h.tail]; rfl
        · simp only [upd_ne hu]; exact h.prod u
      · by_cases hu : u = t
        · subst hu; simp only [upd_same]; rw [h.calls u, hp, hb]; rfl
        · simp only [upd_ne hu]; exact h.calls u
  | link e p =>
    have hb : τ.buf t = [] := by have := H.shape t; rw [hp] at this; exact this
    refine ⟨s, hs, h.head, h.tail, h.next, fun u => ?_, h.cons, h.pushed, h.out, fun u => ?_⟩
    · by_cases hu : u = t
      · subst hu; simp only [upd_same]; rw [h.prod u, hp, hb]; rfl
      · simp only [upd_ne hu]; exact h.prod u
    · by_cases hu : u = t
      · subst hu; simp only [upd_same]; rw [h.calls u, hp]; rfl
      · simp only [upd_ne hu]; exact h.calls u

theorem R_flush {τ : T} {s : Queue.S} (H : J τ) (hs : Queue.Reach s) (h : R τ s) (t : Nat) :
    ∃ s', Queue.Reach s' ∧ R (flush τ t) s' := by
  unfold flush
  cases hb : τ.buf t with
  | nil => exact ⟨s, hs, h⟩
  | cons w l =>
    have hsh := H.shape t
    rw [hb] at hsh
    cases w with
    | user a v =>
      obtain ⟨e1, e2⟩ := absP_tail hsh (by simp)
      refine ⟨{ s with next := upd s.next a v }, hs.write (fun x hx => ?_), h.head, h.tail, ?_, fun u => ?_, h.cons,
        h.pushed, h.out, fun u => ?_⟩
      · refine upd_ne ?_
        rintro rfl
        have hu := H.usr t x v (by rw [hb]; exact List.mem_cons_self)
        rcases h.flight hx with ⟨u, h1, h2⟩ | h1
        · by_cases hut : u = t
          · subst hut; rw [hb] at h2; cases h2
          · exact hu.2 u hut (Or.inr h1)
        · exact hu.1 h1
      · simp only [W.apply, h.next]
      · simp only [W.apply]
        by_cases hu : u = t
        · subst hu; simp only [upd_same]; rw [h.prod u, hb, e1]
          cases τ.pc u <;> rfl
        · simp only [upd_ne hu]; exact h.prod u
      · simp only [W.apply]
        by_cases hu : u = t
        · subst hu; simp only [upd_same]; rw [h.calls u, hb, e2]
        · simp only [upd_ne hu]; exact h.calls u
    | clear e =>
      obtain ⟨hp, rfl⟩ := hsh.clear
      have hq : s.prod t = .idle := by rw [h.prod, hp, hb]; rfl
      have hpre := H.pre t e (Or.inr hp)
      have hnf : ¬ Queue.InFlight s e := by
        intro hx
        rcases h.flight hx with ⟨u, h1, h2⟩ | h1
        · have := H.preU u t e (Or.inr h1) (Or.inr hp)
          subst this; rw [hb] at h2; cases h2
        · exact hpre.2 h1
      refine ⟨_, (hs.start hq hpre.1 hnf).prod t, ?_⟩
      unfold Queue.pstep
      simp only [upd_same]
      refine ⟨h.head, h.tail, ?_, fun u => ?_, h.cons, h.pushed, h.out, fun u => ?_⟩
      · simp only [W.apply, h.next]
      · simp only [W.apply]
        by_cases hu : u = t
        · subst hu; simp only [upd_same]; rw [hp]; rfl
        · simp only [upd_ne hu]; exact h.prod u
      · simp only [W.apply, ofThread_append]
        by_cases hu : u = t
        · subst hu; simp only [upd_same, ofThread_self]; rw [h.calls u, hp, hb]; simp [pendC]
        · simp only [upd_ne hu, ofThread_one hu]; rw [h.calls u]; simp
    | link e p =>
      obtain ⟨e1, e2⟩ := absP_tail hsh (by simp)
      have hq : s.prod t = .link e p := by rw [h.prod, hb]; rfl
      refine ⟨_, hs.prod t, ?_⟩
      unfold Queue.pstep
      rw [hq]
      simp only [W.apply]
      split
      all_goals
        refine ⟨?_, h.tail, ?_, fun u => ?_, h.cons, h.pushed, h.out, fun u => ?_⟩
        · first
            | rfl
            | exact h.head
        · first
            | exact h.next
            | simp only [h.next]
        · by_cases hu : u = t
          · subst hu; simp only [upd_same]; exact e1.symm
          · simp only [upd_ne hu]; exact h.prod u
        · by_cases hu : u = t
          · subst hu; simp only [upd_same]; rw [h.calls u, hb, e2]
          · simp only [upd_ne hu]; exact h.calls u
    | headNull => exact hsh.noHead.elim

theorem R_cflush {τ : T} {s : Queue.S} (H : J τ) (hs : Queue.Reach s) (h : R τ s) :
    ∃ s', Queue.Reach s' ∧ R (cflush τ) s' := by
  unfold cflush
  cases hb : τ.cbuf with
  | nil => exact ⟨s, hs, h⟩
  | cons w l =>
    rcases H.cshape w (by rw [hb]; exact List.mem_cons_self) with rfl | ⟨a, v, rfl⟩
    · obtain ⟨x, hx⟩ := H.chead (by rw [hb]; exact List.mem_cons_self)
      have hl : W.headNull ∉ l := by
        have := H.ccount
        rw [hb, List.count_cons_self] at this
        exact List.count_eq_zero.1 (by omega)
      have hc : s.cons = .clearHead x := by rw [h.cons, hx, hb]; simp [absC]
      refine ⟨{ s with head := 0, cons := .swapTail x }, hs.cons (by unfold Queue.cstep; rw [hc]), rfl, h.tail, h.next,
        h.prod, ?_, h.pushed, h.out, h.calls⟩
      simp only [W.apply, hx, absC, hl, if_false]
    · have hu := H.cusr a v (by rw [hb]; exact List.mem_cons_self)
      refine ⟨{ s with next := upd s.next a v }, hs.write (fun x hx => ?_), h.head, h.tail, ?_, h.prod, ?_, h.pushed,
        h.out, h.calls⟩
      · refine upd_ne ?_
        rintro rfl
        rcases h.flight hx with ⟨u, h1, _⟩ | h1
        · exact hu.2 u (Or.inr h1)
        · exact hu.1 h1
      · simp only [W.apply, h.next]
      · simp only [W.apply]
        rw [h.cons, hb]
        unfold absC
        split
        · simp
        · rfl

/-- The entries that the consumer reads are in the hands of the queue. -/
theorem reads {s : Queue.S} (hs : Queue.Reach s) {cur : Nat}
    (h : (∃ x tl, s.cons = .walk x tl cur) ∨ (∃ x tl, s.cons = .adv x tl cur) ∨ (s.cons = .dread cur ∧ cur ≠ 0)) :
    cur ∈ (s.pushed.map Prod.snd).drop s.out.length := by
  obtain ⟨D, Q, own, I⟩ := hs.inv
  rw [I.pushed, List.drop_left]
  refine List.mem_append_left _ ?_
  have hc := I.cons
  unfold Queue.ConsOK at hc
  rcases h with ⟨x, tl, h⟩ | ⟨x, tl, h⟩ | ⟨h, h0⟩
  · rw [h] at hc
    obtain ⟨_, _, A, B, rfl, _⟩ := hc
    simp
  · rw [h] at hc
    obtain ⟨_, _, _, _, A, B, rfl, _⟩ := hc
    simp
  · rw [h] at hc
    obtain ⟨hc, _⟩ := hc
    cases D with
    | nil => exact absurd hc h0
    | cons d l => simp at hc; rw [hc]; exact List.mem_cons_self

/-- The consumer has a step, which is a step of the sequentially consistent one unless it only stores the head. -/
theorem R_cstep {τ : T} {s : Queue.S} (H : J τ) (hs : Queue.Reach s) (h : R τ s) :
    ∃ τ', cstep true τ = .ok τ' ∧
      ((∃ x, τ.cons = .clearHead x ∧ τ' = { τ with cbuf := τ.cbuf ++ [.headNull], cons := .swapTail x } ∧ R τ' s) ∨
       (∃ x, τ.cons = .swapTail x ∧ τ.cbuf ≠ [] ∧ τ' = τ) ∨
       ((∀ x, τ.cons ≠ .clearHead x) ∧ (∀ x, τ.cons = .swapTail x → τ.cbuf = []) ∧ τ'.cbuf = τ.cbuf ∧
         ∃ s', Queue.cstep s = .ok s' ∧ R τ' s')) := by
  have hc := h.cons
  obtain ⟨D, Q, own, I⟩ := hs.inv
  obtain ⟨s1, _, _, e1, _⟩ := Queue.inv_cstep I
  have noHead : (∀ x, τ.cons ≠ .swapTail x) → readHead τ.cbuf τ.head = s.head := by
    intro h1
    rw [h.head]
    exact readHead_mem _ H.cshape (fun h2 => by obtain ⟨x, h3⟩ := H.chead h2; exact h1 x h3)
  have rd : ∀ cur, cur ∈ (s.pushed.map Prod.snd).drop s.out.length → readNext τ.cbuf τ.next cur = s.next cur := by
    intro cur hm
    rw [h.pushed, h.out] at hm
    rw [h.next]
    exact readNext_mem _ H.cshape (fun v hv => (H.cusr cur v hv).1 hm)
  have mv : ∀ c : CPC, (∀ x, c ≠ .swapTail x) → R { τ with cons := c } { s with cons := c } := by
    intro c h1
    refine ⟨h.head, h.tail, h.next, h.prod, ?_, h.pushed, h.out, h.calls⟩
    unfold absC
    split
    · rename_i x e; exact absurd e (h1 x)
    · rfl
  cases hk : τ.cons with
  | idle =>
    have hc' : s.cons = .idle := by rw [hc, hk]; rfl
    have hr := noHead (by simp [hk])
    unfold cstep Queue.cstep
    rw [hk, hc']
    simp only
    rw [hr]
    refine ⟨_, rfl, Or.inr (Or.inr ⟨by simp, by simp, ?_, _, rfl, ?_⟩)⟩
    · split <;> rfl
    · split
      · exact h
      · exact mv _ (by simp)
  | load =>
    have hc' : s.cons = .load := by rw [hc, hk]; rfl
    have hr := noHead (by simp [hk])
    unfold cstep Queue.cstep
    rw [hk, hc']
    simp only
    rw [hr]
    refine ⟨_, rfl, Or.inr (Or.inr ⟨by simp, by simp, rfl, _, rfl, mv _ ?_⟩)⟩
    intro x; split <;> simp
  | clearHead x =>
    unfold cstep
    rw [hk]
    refine ⟨_, rfl, Or.inl ⟨x, rfl, rfl, h.head, h.tail, h.next, h.prod, ?_, h.pushed, h.out, h.calls⟩⟩
    rw [hc, hk]
    simp [absC]
  | swapTail x =>
    unfold cstep
    rw [hk]
    simp only [true_and]
    by_cases hb : τ.cbuf = []
    · rw [if_neg (by simp [hb])]
      have hc' : s.cons = .swapTail x := by rw [hc, hk, hb]; simp [absC]
      unfold Queue.cstep
      rw [hc']
      refine ⟨_, rfl, Or.inr (Or.inr ⟨by simp, fun _ _ => hb, rfl, _, rfl, ?_⟩)⟩
      exact ⟨h.head, rfl, h.next, h.prod, by simp only [absC, h.tail], h.pushed, h.out, h.calls⟩
    · rw [if_pos hb]
      exact ⟨_, rfl, Or.inr (Or.inl ⟨x, rfl, hb, rfl⟩)⟩
  | walk x tl cur =>
    have hc' : s.cons = .walk x tl cur := by rw [hc, hk]; rfl
    have hr := rd cur (reads hs (Or.inl ⟨x, tl, hc'⟩))
    unfold cstep
    unfold Queue.cstep at e1 ⊢
    rw [hk]
    rw [hc'] at e1 ⊢
    simp only at e1 ⊢
    rw [hr]
    by_cases h1 : cur = tl
    · rw [if_pos h1, if_pos h1]
      exact ⟨_, rfl, Or.inr (Or.inr ⟨by simp, by simp, rfl, _, rfl, mv _ (by simp)⟩)⟩
    · rw [if_neg h1] at e1
      rw [if_neg h1, if_neg h1]
      by_cases h2 : cur = 0
      · rw [if_pos h2] at e1; cases e1
      · rw [if_neg h2, if_neg h2]
        refine ⟨_, rfl, Or.inr (Or.inr ⟨by simp, by simp, ?_, _, rfl, ?_⟩)⟩
        · split <;> rfl
        · split
          · exact h
          · exact mv _ (by simp)
  | adv x tl cur =>
    have hc' : s.cons = .adv x tl cur := by rw [hc, hk]; rfl
    have hr := rd cur (reads hs (Or.inr (Or.inl ⟨x, tl, hc'⟩)))
    unfold cstep
    unfold Queue.cstep at e1 ⊢
    rw [hk]
    rw [hc'] at e1 ⊢
    simp only at e1 ⊢
    rw [hr]
    by_cases h2 : cur = 0
    · rw [if_pos h2] at e1; cases e1
    · rw [if_neg h2, if_neg h2]
      exact ⟨_, rfl, Or.inr (Or.inr ⟨by simp, by simp, rfl, _, rfl, mv _ (by simp)⟩)⟩
  | dread cur =>
    have hc' : s.cons = .dread cur := by rw [hc, hk]; rfl
    unfold cstep Queue.cstep
    rw [hk, hc']
    simp only
    refine ⟨_, rfl, Or.inr (Or.inr ⟨by simp, by simp, rfl, _, rfl, ?_⟩)⟩
    by_cases h0 : cur = 0
    · simp only [h0, if_true]; exact mv _ (by simp)
    · have hr := rd cur (reads hs (Or.inr (Or.inr ⟨hc', h0⟩)))
      simp only [h0, if_false, hr]; exact mv _ (by simp)
  | dfree cur nxt =>
    have hc' : s.cons = .dfree cur nxt := by rw [hc, hk]; rfl
    unfold cstep Queue.cstep
    rw [hk, hc']
    refine ⟨_, rfl, Or.inr (Or.inr ⟨by simp, by simp, rfl, _, rfl, ?_⟩)⟩
    exact ⟨h.head, h.tail, h.next, h.prod, rfl, h.pushed, by simp only [h.out], h.calls⟩

theorem R_step {τ τ' : T} {s : Queue.S} (H : J τ) (hs : Queue.Reach s) (h : R τ s) (st : Step true τ τ') :
    ∃ s', Queue.Reach s' ∧ R τ' s' := by
  cases st with
  | start h1 h2 h3 h4 h5 => exact ⟨s, hs, R_start h h1⟩
  | prod t => exact R_prod H hs h t
  | cons e =>
    obtain ⟨τ1, e1, h1⟩ := R_cstep H hs h
    rw [e] at e1
    cases Outcome.ok.inj e1
    rcases h1 with ⟨_, _, _, h1⟩ | ⟨_, _, _, rfl⟩ | ⟨_, _, _, s', h1, h2⟩
    · exact ⟨s, hs, h1⟩
    · exact ⟨s, hs, h⟩
    · exact ⟨s', hs.cons h1, h2⟩
  | flush t => exact R_flush H hs h t
  | cflush => exact R_cflush H hs h
  | @write t a v h1 h2 =>
    refine ⟨s, hs, h.head, h.tail, h.next, fun u => ?_, h.cons, h.pushed, h.out, fun u => ?_⟩
    · by_cases hu : u = t
      · subst hu; simp only [upd_same]; rw [h.prod u, h1]
        cases hb : τ.buf u with
        | nil => rfl
        | cons w l => cases w <;> rfl
      · simp only [upd_ne hu]; exact h.prod u
    · by_cases hu : u = t
      · subst hu; simp only [upd_same]; rw [h.calls u, h1]; rfl
      · simp only [upd_ne hu]; exact h.calls u
  | @cwrite a v h1 =>
    refine ⟨s, hs, h.head, h.tail, h.next, h.prod, ?_, h.pushed, h.out, h.calls⟩
    rw [h.cons]
    unfold absC
    cases τ.cons <;> simp

theorem Reach.sim {τ : T} (h : Reach true τ) : J τ ∧ ∃ s, Queue.Reach s ∧ R τ s := by
  obtain ⟨n, h⟩ := h
  induction h with
  | refl => exact ⟨J_init n, _, Queue.Reach.init n, R_init n⟩
  | step _ st ih =>
    obtain ⟨H, s, hs, hR⟩ := ih
    exact ⟨J_step H st, R_step H hs hR st⟩

/-! ## C64 -/

/-- The machine without delays does the same: what the pushes, the deliveries and the memory are in an execution with
delayed stores, they are in an execution without. -/
theorem C64_refines {τ : T} (h : Reach true τ) :
    ∃ s, Queue.Reach s ∧ s.pushed = τ.pushed ∧ s.out = τ.out ∧ s.head = τ.head ∧ s.tail = τ.tail ∧ s.next = τ.next := by
  obtain ⟨_, s, hs, hR⟩ := h.sim
  exact ⟨s, hs, hR.pushed, hR.out, hR.head, hR.tail, hR.next⟩

/-- C64: with delayed stores and swaps that wait for them, what was delivered is a prefix of what was pushed, and what
was not delivered yet has no repetition. -/
theorem C64_exactly_once {τ : T} (h : Reach true τ) :
    ∃ l, τ.pushed.map Prod.snd = τ.out ++ l ∧ l.Nodup := by
  obtain ⟨_, s, hs, hR⟩ := h.sim
  have := Queue.C25_exactly_once hs
  rwa [hR.pushed, hR.out] at this

/-- C64: the order of the deliveries is the order of the swaps, and that of the calls of each thread. -/
theorem C64_fifo {τ : T} (h : Reach true τ) :
    ∃ del, del <+: τ.pushed ∧ τ.out = del.map Prod.snd ∧ ∀ t, ofThread t del <+: ofThread t τ.calls := by
  obtain ⟨_, s, hs, hR⟩ := h.sim
  obtain ⟨del, h1, h2, h3⟩ := Queue.C26_fifo hs
  rw [hR.pushed] at h1
  rw [hR.out] at h2
  refine ⟨del, h1, h2, fun t => (h3 t).trans ?_⟩
  rw [hR.calls t]
  exact List.prefix_append _ _

/-- All the pushes that have swapped the tail have stored their link, and the stores have reached the memory. -/
def Settled (τ : T) : Prop := ∀ t, (∀ e p, τ.pc t ≠ .link e p) ∧ ∀ e p, W.link e p ∉ τ.buf t

theorem Settled.abs {τ : T} {s : Queue.S} (h : R τ s) (hq : Settled τ) (t e p : Nat) : s.prod t ≠ .link e p := by
  rw [h.prod]
  intro hx
  have h1 := (hq t).1
  have h2 := (hq t).2
  cases hb : τ.buf t with
  | nil =>
    rw [hb] at hx
    cases hp : τ.pc t <;> rw [hp] at hx <;> simp [absP] at hx
    exact h1 _ _ hp
  | cons w l =>
    rw [hb] at hx
    cases w with
    | link a b => exact h2 a b (by rw [hb]; exact List.mem_cons_self)
    | user a v => cases hp : τ.pc t <;> rw [hp] at hx <;> simp [absP] at hx
    | clear a => cases hp : τ.pc t <;> rw [hp] at hx <;> simp [absP] at hx
    | headNull => cases hp : τ.pc t <;> rw [hp] at hx <;> simp [absP] at hx

/-- C64, nothing is lost: when the pushes are settled and the consumer is not draining, it reads an empty queue only if
everything pushed was delivered. -/
theorem C64_nothing_lost {τ : T} (h : Reach true τ) (hq : Settled τ) (hc : τ.cons = .idle)
    (he : readHead τ.cbuf τ.head = 0) : τ.out = τ.pushed.map Prod.snd := by
  obtain ⟨H, s, hs, hR⟩ := h.sim
  have hh : s.head = 0 := by
    rw [hR.head, ← he]
    exact (readHead_mem _ H.cshape (fun h2 => by obtain ⟨x, h3⟩ := H.chead h2; rw [hc] at h3; cases h3)).symm
  have := Queue.C25_nothing_lost hs (hq.abs hR) (by rw [hR.cons, hc]; rfl) hh
  rwa [hR.pushed, hR.out] at this

/-- The consumer alone: its store buffer moves when it is not empty. -/
def crun : Nat → T → Outcome T
  | 0, τ => .ok τ
  | k + 1, τ => if τ.cbuf = [] then (cstep true τ).bind (crun k) else crun k (cflush τ)

theorem crun_add (k l : Nat) : ∀ {τ τ' : T}, crun k τ = .ok τ' → crun (k + l) τ = crun l τ' := by
  induction k with
  | zero => intro τ τ' h; cases h; rw [Nat.zero_add]
  | succ k ih =>
    intro τ τ' h
    rw [Nat.add_right_comm]
    simp only [crun] at h ⊢
    split at h
    · rename_i h0
      rw [if_pos h0]
      cases hc : cstep true τ with
      | ok τ1 => rw [hc] at h; exact ih h
      | abort => rw [hc] at h; cases h
      | ub => rw [hc] at h; cases h
      | diverge => rw [hc] at h; cases h
    · rename_i h0
      rw [if_neg h0]; exact ih h

theorem crun_reach (k : Nat) : ∀ {τ τ' : T}, Reach true τ → crun k τ = .ok τ' → Reach true τ' := by
  induction k with
  | zero => intro τ τ' h e; cases e; exact h
  | succ k ih =>
    intro τ τ' h e
    simp only [crun] at e
    split at e
    · cases hc : cstep true τ with
      | ok τ1 => rw [hc] at e; exact ih (h.step (Step.cons hc)) e
      | abort => rw [hc] at e; cases e
      | ub => rw [hc] at e; cases e
      | diverge => rw [hc] at e; cases e
    · exact ih (h.step Step.cflush) e

theorem cflush_same (τ : T) : (cflush τ).pc = τ.pc ∧ (cflush τ).buf = τ.buf ∧ (cflush τ).pushed = τ.pushed ∧
    (cflush τ).out = τ.out ∧ (cflush τ).cons = τ.cons ∧ (cflush τ).cbuf.length = τ.cbuf.length - 1 := by
  unfold cflush
  split
  · rename_i h; rw [h]; exact ⟨rfl, rfl, rfl, rfl, rfl, rfl⟩
  · rename_i h; rw [h]; simp

/-- The store buffer of the consumer empties. -/
theorem crun_empty (n : Nat) : ∀ {τ : T}, τ.cbuf.length = n → Reach true τ →
    ∃ τ', crun n τ = .ok τ' ∧ Reach true τ' ∧ τ'.cbuf = [] ∧ τ'.pc = τ.pc ∧ τ'.buf = τ.buf ∧ τ'.pushed = τ.pushed ∧
      τ'.out = τ.out ∧ τ'.cons = τ.cons := by
  induction n with
  | zero => intro τ h hr; exact ⟨τ, rfl, hr, List.length_eq_zero_iff.1 h, rfl, rfl, rfl, rfl, rfl⟩
  | succ n ih =>
    intro τ h hr
    obtain ⟨c1, c2, c3, c4, c5, c6⟩ := cflush_same τ
    have hne : τ.cbuf ≠ [] := by intro e; rw [e] at h; cases h
    obtain ⟨τ', e, h1, h2, h3, h4, h5, h6, h7⟩ := ih (τ := cflush τ) (by rw [c6, h]; rfl) (hr.step Step.cflush)
    refine ⟨τ', ?_, h1, h2, by rw [h3, c1], by rw [h4, c2], by rw [h5, c3], by rw [h6, c4], by rw [h7, c5]⟩
    simp only [crun]
    rw [if_neg hne]; exact e

/-- The steps of the sequentially consistent consumer, with the buffer. -/
theorem crun_csteps (k : Nat) : ∀ {τ : T} {s s' : Queue.S}, J τ → Queue.Reach s → R τ s → τ.cbuf = [] →
    Queue.csteps k s = .ok s' → ∃ k' τ', k' ≤ 2 * k ∧ crun k' τ = .ok τ' ∧ J τ' ∧ R τ' s' ∧ τ'.cbuf = [] := by
  induction k with
  | zero => intro τ s s' H hs hR hb e; cases e; exact ⟨0, τ, Nat.le_refl _, rfl, H, hR, hb⟩
  | succ k ih =>
    intro τ s s' H hs hR hb e
    simp only [Queue.csteps] at e
    obtain ⟨s1, e1, e2⟩ := Outcome.bind_eq_ok e
    obtain ⟨τ1, c1, h1⟩ := R_cstep H hs hR
    have H1 := J_cons H c1
    have one : crun 1 τ = .ok τ1 := by
      simp only [crun]; rw [if_pos hb, c1]; rfl
    rcases h1 with ⟨x, hx, rfl, hR1⟩ | ⟨_, _, h, _⟩ | ⟨_, _, hb1, s2, h1, hR1⟩
    · -- the store of the head and its way to the memory
      have hcs : s.cons = .clearHead x := by rw [hR.cons, hx]; rfl
      have hs1 : s1 = { s with head := 0, cons := .swapTail x } := by
        unfold Queue.cstep at e1; rw [hcs] at e1; exact (Outcome.ok.inj e1).symm
      have hR2 : R { τ with head := 0, cons := .swapTail x } s1 := by
        rw [hs1]
        refine ⟨rfl, hR.tail, hR.next, hR.prod, ?_, hR.pushed, hR.out, hR.calls⟩
        simp only [absC, hb]; simp
      have two : crun (1 + 1) τ = .ok { τ with head := 0, cons := .swapTail x } := by
        rw [crun_add 1 1 one]
        simp only [crun]
        rw [if_neg (by simp)]
        unfold cflush
        rw [hb]
        simp only [List.nil_append, W.apply]
      have H2 : J { τ with head := 0, cons := .swapTail x } := by
        refine ⟨H.shape, H.cshape, fun h => ?_, H.ccount, H.pre, H.preU, H.usr, H.cusr⟩
        exact ⟨x, rfl⟩
      obtain ⟨k', τ', hk, hr, h3, h4, h5⟩ := ih H2 (hs.cons e1) hR2 hb e2
      exact ⟨1 + 1 + k', τ', by omega, by rw [crun_add _ _ two]; exact hr, h3, h4, h5⟩
    · exact absurd hb h
    · rw [e1] at h1
      cases Outcome.ok.inj h1
      obtain ⟨k', τ', hk, hr, h3, h4, h5⟩ := ih H1 (hs.cons e1) hR1 (by rw [hb1, hb]) e2
      exact ⟨1 + k', τ', by omega, by rw [crun_add _ _ one]; exact hr, h3, h4, h5⟩

/-- C64: the consumer reads no `NULL->next`; once the pushes are settled it finishes alone, within a number of steps
bounded by the entries not yet delivered and its delayed stores, and a drain that starts then delivers everything. -/
theorem C64_drain_ends {τ : T} (h : Reach true τ) :
    (∃ τ', cstep true τ = .ok τ') ∧
    (Settled τ → ∃ k τ', k ≤ τ.cbuf.length + 8 * (τ.pushed.length - τ.out.length) + 12 ∧ crun k τ = .ok τ' ∧
      τ'.cons = .idle ∧ (τ.cons = .idle → τ'.out = τ.pushed.map Prod.snd)) := by
  obtain ⟨H, s, hs, hR⟩ := h.sim
  constructor
  · obtain ⟨τ', e, _⟩ := R_cstep H hs hR
    exact ⟨τ', e⟩
  · intro hq
    obtain ⟨τ1, e1, r1, b1, p1, u1, q1, o1, c1⟩ := crun_empty _ rfl h
    obtain ⟨H1, s1, hs1, hR1⟩ := r1.sim
    have hq1 : Settled τ1 := fun t => by rw [p1, u1]; exact hq t
    obtain ⟨k, s', hk, e2, hi, ho⟩ := (Queue.C27_drain_ends hs1).2 (hq1.abs hR1)
    obtain ⟨k', τ', hk', e3, _, hR', b'⟩ := crun_csteps k H1 hs1 hR1 b1 e2
    rw [hR1.pushed, hR1.out, q1, o1] at hk
    refine ⟨τ.cbuf.length + k', τ', by omega, by rw [crun_add _ _ e1]; exact e3, ?_, fun hc => ?_⟩
    · have := hR'.cons
      rw [hi] at this
      cases hc : τ'.cons <;> rw [hc] at this <;> simp [absC, b'] at this
    · rw [← hR'.out, ho (by rw [hR1.cons, c1, hc]; rfl), hR1.pushed, q1]

/-! ## Without the order of the stores and the swaps -/

/-- The head is `NULL` and the tail is not: no push writes the head again. -/
structure Lost (τ : T) : Prop where
  head : τ.head = 0
  tail : τ.tail ≠ 0
  cons : τ.cons = .idle
  cbuf : ∀ w ∈ τ.cbuf, w = W.headNull ∨ ∃ a v, w = W.user a v
  pc : ∀ t e, τ.pc t ≠ .link e 0
  buf : ∀ t e, W.link e 0 ∉ τ.buf t
  nz : ∀ t, τ.pc t ≠ .swap 0 ∧ τ.pc t ≠ .clear 0

theorem Lost.apply {τ : T} (L : Lost τ) {w : W} (hw : ∀ e, w ≠ W.link e 0) :
    (w.apply τ).head = 0 ∧ (w.apply τ).tail ≠ 0 := by
  cases w with
  | user a v => exact ⟨L.head, L.tail⟩
  | clear e => exact ⟨L.head, L.tail⟩
  | headNull => exact ⟨rfl, L.tail⟩
  | link e p =>
    have : p ≠ 0 := by rintro rfl; exact hw e rfl
    simp only [W.apply, this, if_false]
    exact ⟨L.head, L.tail⟩

theorem Lost.step {τ τ' : T} (L : Lost τ) (h : Step false τ τ') : Lost τ' ∧ τ'.out = τ.out := by
  cases h with
  | @start t e h1 h2 h3 h4 h5 =>
    refine ⟨⟨L.head, L.tail, L.cons, L.cbuf, fun u f => ?_, L.buf, fun u => ?_⟩, rfl⟩
    · simp only [upd]; split
      · simp
      · exact L.pc u f
    · simp only [upd]; split
      · exact ⟨by simp, by simpa using h2⟩
      · exact L.nz u
  | prod t =>
    unfold pstep
    cases hp : τ.pc t with
    | idle => exact ⟨L, rfl⟩
    | clear e =>
      have he := (L.nz t).2
      rw [hp] at he
      refine ⟨⟨L.head, L.tail, L.cons, L.cbuf, fun u f => ?_, fun u f => ?_, fun u => ?_⟩, rfl⟩
      · simp only [upd]; split
        · simp
        · exact L.pc u f
      · simp only [upd]; split
        · simpa using L.buf t f
        · exact L.buf u f
      · simp only [upd]; split
        · exact ⟨by simpa using he, by simp⟩
        · exact L.nz u
    | swap e =>
      have he := (L.nz t).1
      rw [hp] at he
      simp only [Bool.false_eq_true, false_and, if_false]
      refine ⟨⟨L.head, by simpa using he, L.cons, L.cbuf, fun u f => ?_, L.buf, fun u => ?_⟩, trivial⟩
      · simp only [upd]; split
        · simpa using fun _ => L.tail
        · exact L.pc u f
      · simp only [upd]; split
        · simp
        · exact L.nz u
    | link e p =>
      have he := L.pc t e
      rw [hp] at he
      refine ⟨⟨L.head, L.tail, L.cons, L.cbuf, fun u f => ?_, fun u f => ?_, fun u => ?_⟩, rfl⟩
      · simp only [upd]; split
        · simp
        · exact L.pc u f
      · simp only [upd]; split
        · rw [List.mem_append, not_or]
          refine ⟨L.buf t f, ?_⟩
          simp only [List.mem_singleton]
          intro h
          cases h
          exact he rfl
        · exact L.buf u f
      · simp only [upd]; split
        · simp
        · exact L.nz u
  | cons e =>
    have hr : readHead τ.cbuf τ.head = 0 := by
      rw [L.head]
      have hb := L.cbuf
      unfold readHead
      generalize τ.cbuf = b at hb
      induction b with
      | nil => rfl
      | cons w l ih =>
        rw [List.foldl_cons]
        rcases hb w List.mem_cons_self with rfl | ⟨a, v, rfl⟩
        · exact ih (fun x hx => hb x (List.mem_cons_of_mem _ hx))
        · exact ih (fun x hx => hb x (List.mem_cons_of_mem _ hx))
    unfold cstep at e
    rw [L.cons] at e
    simp only [hr, if_true] at e
    cases e
    exact ⟨L, rfl⟩
  | flush t =>
    unfold flush
    cases hb : τ.buf t with
    | nil => exact ⟨L, rfl⟩
    | cons w l =>
      have hw : ∀ e, w ≠ W.link e 0 := by
        rintro e rfl; exact L.buf t e (by rw [hb]; exact List.mem_cons_self)
      have L' : Lost { τ with buf := upd τ.buf t l } := by
        refine ⟨L.head, L.tail, L.cons, L.cbuf, L.pc, fun u e => ?_, L.nz⟩
        simp only [upd]; split
        · intro h; exact L.buf t e (by rw [hb]; exact List.mem_cons_of_mem _ h)
        · exact L.buf u e
      have h1 := L'.apply hw
      exact ⟨⟨h1.1, h1.2, by simpa using L'.cons, by simpa using L'.cbuf, by simpa using L'.pc, by simpa using L'.buf,
        by simpa using L'.nz⟩, by simp⟩
  | cflush =>
    unfold cflush
    cases hb : τ.cbuf with
    | nil => exact ⟨L, rfl⟩
    | cons w l =>
      have hw : ∀ e, w ≠ W.link e 0 := by
        rintro e rfl
        rcases L.cbuf _ (by rw [hb]; exact List.mem_cons_self) with h | ⟨_, _, h⟩ <;> cases h
      have L' : Lost { τ with cbuf := l } :=
        ⟨L.head, L.tail, L.cons, fun x hx => L.cbuf x (by rw [hb]; exact List.mem_cons_of_mem _ hx), L.pc, L.buf, L.nz⟩
      have h1 := L'.apply hw
      exact ⟨⟨h1.1, h1.2, by simpa using L'.cons, by simpa using L'.cbuf, by simpa using L'.pc, by simpa using L'.buf,
        by simpa using L'.nz⟩, by simp⟩
  | @write t a v h1 h2 =>
    refine ⟨⟨L.head, L.tail, L.cons, L.cbuf, L.pc, fun u e => ?_, L.nz⟩, rfl⟩
    simp only [upd]; split
    · simpa using L.buf t e
    · exact L.buf u e
  | cwrite h2 =>
    refine ⟨⟨L.head, L.tail, L.cons, fun w hw => ?_, L.pc, L.buf, L.nz⟩, rfl⟩
    rcases List.mem_append.1 hw with hw | hw
    · exact L.cbuf w hw
    · exact Or.inr ⟨_, _, by simpa using hw⟩

theorem Lost.steps {τ τ' : T} (L : Lost τ) (h : Steps false τ τ') : Lost τ' ∧ τ'.out = τ.out := by
  induction h with
  | refl => exact ⟨L, rfl⟩
  | step _ st ih =>
    obtain ⟨L1, e1⟩ := ih
    obtain ⟨L2, e2⟩ := L1.step st
    exact ⟨L2, e2.trans e1⟩

theorem two_starts (fence : Bool) : Reach fence { init (fun _ => 0) with
    pc := upd (upd (fun _ => .idle) 1 (.clear 100)) 2 (.clear 200), calls := [(1, 100), (2, 200)] } := by
  have h0 : Reach fence (init (fun _ => 0)) := ⟨_, Steps.refl⟩
  have h1 := h0.step (Step.start (t := 1) (e := 100) rfl (by omega) (by simp [InFlight, init, rest])
    (by simp [init]) (by simp [init]))
  refine h1.step (Step.start (t := 2) (e := 200) rfl (by omega) ?_ (by simp [init]) (by simp [init]))
  rintro (⟨t, ht⟩ | ht)
  · simp only [init, upd] at ht
    split at ht <;> simp at ht
  · simp [rest, init] at ht

/-- Reachable, with only the threads 1 and 2 doing something. -/
def Two (f : Bool) (τ : T) : Prop := Reach f τ ∧ ∀ t, t ≠ 1 → t ≠ 2 → τ.pc t = .idle ∧ τ.buf t = []

theorem Two.prod {f : Bool} {τ : T} (h : Two f τ) {t : Nat} (ht : t = 1 ∨ t = 2) : Two f (pstep f τ t) := by
  refine ⟨h.1.step (Step.prod t), fun u h1 h2 => ?_⟩
  have hu : u ≠ t := by rcases ht with rfl | rfl <;> assumption
  have := h.2 u h1 h2
  unfold pstep
  split
  · exact this
  · simp only [upd_ne hu]; exact this
  · split
    · exact this
    · simp only [upd_ne hu]; exact this
  · simp only [upd_ne hu]; exact this

theorem Two.flush {f : Bool} {τ : T} (h : Two f τ) {t : Nat} (ht : t = 1 ∨ t = 2) : Two f (flush τ t) := by
  refine ⟨h.1.step (Step.flush t), fun u h1 h2 => ?_⟩
  have hu : u ≠ t := by rcases ht with rfl | rfl <;> assumption
  unfold QueueTso.flush
  split
  · exact h.2 u h1 h2
  · rw [apply_pc, apply_buf]; simp only [upd_ne hu]; exact h.2 u h1 h2

theorem Two.cflush {f : Bool} {τ : T} (h : Two f τ) : Two f (cflush τ) := by
  obtain ⟨c1, c2, _⟩ := cflush_same τ
  exact ⟨h.1.step Step.cflush, by rw [c1, c2]; exact h.2⟩

theorem Two.cons {f : Bool} {τ τ' : T} (h : Two f τ) (e : cstep f τ = .ok τ') : Two f τ' := by
  refine ⟨h.1.step (Step.cons e), ?_⟩
  have : τ'.pc = τ.pc ∧ τ'.buf = τ.buf := by
    unfold cstep at e
    split at e
    all_goals try split at e
    all_goals try split at e
    all_goals try split at e
    all_goals first
      | (cases Outcome.ok.inj e; exact ⟨rfl, rfl⟩)
      | (cases e)
  rw [this.1, this.2]; exact h.2

theorem two_both (f : Bool) : Two f { init (fun _ => 0) with
    pc := upd (upd (fun _ => .idle) 1 (.clear 100)) 2 (.clear 200), calls := [(1, 100), (2, 200)] } :=
  ⟨two_starts f, fun t h1 h2 => ⟨by show upd _ 2 _ t = _; rw [upd_ne h2, upd_ne h1], rfl⟩⟩

theorem Two.all {f : Bool} {τ : T} (h : Two f τ) (P : PPC → List W → Prop) (h0 : P .idle []) (h1 : P (τ.pc 1) (τ.buf 1))
    (h2 : P (τ.pc 2) (τ.buf 2)) (t : Nat) : P (τ.pc t) (τ.buf t) := by
  by_cases e1 : t = 1
  · subst e1; exact h1
  · by_cases e2 : t = 2
    · subst e2; exact h2
    · rw [(h.2 t e1 e2).1, (h.2 t e1 e2).2]; exact h0

theorem lost_state : ∃ τ, Reach false τ ∧ (∀ t, τ.pc t = .idle ∧ τ.buf t = []) ∧ τ.cbuf = [] ∧ τ.cons = .idle ∧
    τ.head = 0 ∧ τ.tail = 200 ∧ τ.pushed = [(1, 100), (2, 200)] ∧ τ.out = [100] := by
  have h := two_both false
  -- thread 1 pushes 100
  have h := h.prod (Or.inl rfl)
  have h := h.flush (Or.inl rfl)
  have h := h.prod (Or.inl rfl)
  have h := h.prod (Or.inl rfl)
  have h := h.flush (Or.inl rfl)
  -- the consumer empties the queue, its store of the head is delayed
  have h := h.cons rfl
  have h := h.cons rfl
  have h := h.cons rfl
  have h := h.cons rfl
  -- thread 2 pushes 200
  have h := h.prod (Or.inr rfl)
  have h := h.flush (Or.inr rfl)
  have h := h.prod (Or.inr rfl)
  have h := h.prod (Or.inr rfl)
  have h := h.flush (Or.inr rfl)
  -- the store of the consumer reaches the memory
  have h := h.cflush
  have h := h.cons rfl
  have h := h.cons rfl
  have h := h.cons rfl
  have h := h.cons rfl
  have hq := h.all (fun p b => p = .idle ∧ b = []) ⟨rfl, rfl⟩ ⟨rfl, rfl⟩ ⟨rfl, rfl⟩
  exact ⟨_, h.1, hq, rfl, rfl, rfl, rfl, rfl, rfl⟩

/-- C64 is false when the swap of the tail may overtake the store of `NULL` into the head, mpscf_queue.h 222-226: every
push is finished, all the buffers are empty, the queue looks empty, the block 200 was not delivered, and whatever the
threads do afterwards nothing will ever be delivered. -/
theorem C64_refuted_lost : ∃ τ, Reach false τ ∧ (∀ t, τ.pc t = .idle ∧ τ.buf t = []) ∧ τ.cbuf = [] ∧
    τ.cons = .idle ∧ τ.head = 0 ∧ τ.pushed = [(1, 100), (2, 200)] ∧ ∀ τ', Steps false τ τ' → τ'.out = [100] := by
  obtain ⟨τ, h, hq, h1, h2, h3, h4, h5, h6⟩ := lost_state
  refine ⟨τ, h, hq, h1, h2, h3, h5, fun τ' st => ?_⟩
  have L : Lost τ :=
    { head := h3
      tail := by rw [h4]; omega
      cons := h2
      cbuf := by intro w hw; rw [h1] at hw; cases hw
      pc := fun t e => by rw [(hq t).1]; simp
      buf := fun t e => by rw [(hq t).2]; simp
      nz := fun t => by rw [(hq t).1]; simp }
  rw [(L.steps st).2, h6]

/-- The consumer waits for the link of the block 100, which nobody will write. -/
structure Stuck (τ : T) : Prop where
  cons : τ.cons = .walk 100 200 100
  next : τ.next 100 = 0
  rest : 100 ∈ rest τ
  tail : τ.tail ≠ 100
  pc : ∀ t e, τ.pc t ≠ .link e 100 ∧ τ.pc t ≠ .clear 100 ∧ τ.pc t ≠ .swap 100
  buf : ∀ t e, W.link e 100 ∉ τ.buf t ∧ W.user 100 e ∉ τ.buf t
  cbuf : ∀ e, W.link e 100 ∉ τ.cbuf ∧ W.user 100 e ∉ τ.cbuf

theorem Stuck.flight {τ : T} (L : Stuck τ) : InFlight τ 100 := Or.inr L.rest

theorem Stuck.apply {τ : T} (L : Stuck τ) {w : W} (hw : ∀ e, w ≠ W.link e 100 ∧ w ≠ W.user 100 e) :
    (w.apply τ).next 100 = 0 ∧ (w.apply τ).tail ≠ 100 := by
  cases w with
  | user a v =>
    have : (100 : Nat) ≠ a := by rintro rfl; exact (hw v).2 rfl
    exact ⟨by simp only [W.apply, upd_ne this]; exact L.next, L.tail⟩
  | clear e =>
    refine ⟨?_, L.tail⟩
    simp only [W.apply, upd]
    split
    · rfl
    · exact L.next
  | headNull => exact ⟨L.next, L.tail⟩
  | link e p =>
    have : (100 : Nat) ≠ p := by rintro rfl; exact (hw e).1 rfl
    simp only [W.apply]
    split
    · exact ⟨L.next, L.tail⟩
    · exact ⟨by simp only [upd_ne this]; exact L.next, L.tail⟩

theorem Stuck.step {τ τ' : T} (L : Stuck τ) (h : Step false τ τ') : Stuck τ' ∧ τ'.out = τ.out := by
  cases h with
  | @start t e h1 h2 h3 h4 h5 =>
    have he : e ≠ 100 := by rintro rfl; exact h3 L.flight
    refine ⟨⟨L.cons, L.next, L.rest, L.tail, fun u f => ?_, L.buf, L.cbuf⟩, rfl⟩
    simp only [upd]; split
    · exact ⟨by simp, by simpa using he, by simp⟩
    · exact L.pc u f
  | prod t =>
    unfold pstep
    cases hp : τ.pc t with
    | idle => exact ⟨L, rfl⟩
    | clear e =>
      have he := (L.pc t 0).2.1
      rw [hp] at he
      refine ⟨⟨L.cons, L.next, L.rest, L.tail, fun u f => ?_, fun u f => ?_, L.cbuf⟩, rfl⟩
      · simp only [upd]; split
        · exact ⟨by simp, by simp, by simpa using he⟩
        · exact L.pc u f
      · simp only [upd]; split
        · simpa using L.buf t f
        · exact L.buf u f
    | swap e =>
      have he := (L.pc t 0).2.2
      rw [hp] at he
      simp only [Bool.false_eq_true, false_and, if_false]
      refine ⟨⟨L.cons, L.next, ?_, by simpa using he, fun u f => ?_, L.buf, L.cbuf⟩, trivial⟩
      · have := L.rest
        unfold QueueTso.rest at this ⊢
        simp only [List.map_append, List.drop_append, List.mem_append]
        exact Or.inl this
      · simp only [upd]; split
        · exact ⟨by simpa using fun _ => L.tail, by simp, by simp⟩
        · exact L.pc u f
    | link e p =>
      have he := (L.pc t e).1
      rw [hp] at he
      refine ⟨⟨L.cons, L.next, L.rest, L.tail, fun u f => ?_, fun u f => ?_, L.cbuf⟩, rfl⟩
      · simp only [upd]; split
        · simp
        · exact L.pc u f
      · simp only [upd]; split
        · simp only [List.mem_append, not_or, List.mem_singleton]
          refine ⟨⟨(L.buf t f).1, ?_⟩, (L.buf t f).2, by simp⟩
          intro h
          cases h
          exact he rfl
        · exact L.buf u f
  | cons e =>
    have hr : readNext τ.cbuf τ.next 100 = 0 := by
      have hb := L.cbuf
      unfold readNext
      rw [L.next]
      generalize τ.cbuf = b at hb
      induction b with
      | nil => rfl
      | cons w l ih =>
        rw [List.foldl_cons]
        have ih' := ih (fun e => ⟨fun h => (hb e).1 (List.mem_cons_of_mem _ h),
          fun h => (hb e).2 (List.mem_cons_of_mem _ h)⟩)
        cases w with
        | user a v =>
          have : a ≠ 100 := by rintro rfl; exact (hb v).2 List.mem_cons_self
          simp only [this, if_false]; exact ih'
        | clear e =>
          simp only [ite_self]
          exact ih'
        | link e p =>
          have : p ≠ 100 := by rintro rfl; exact (hb e).1 List.mem_cons_self
          simp only [this, and_false, if_false]; exact ih'
        | headNull => exact ih'
    unfold cstep at e
    rw [L.cons] at e
    simp only [hr, if_true] at e
    rw [if_neg (by omega), if_neg (by omega)] at e
    cases e
    exact ⟨L, rfl⟩
  | flush t =>
    unfold flush
    cases hb : τ.buf t with
    | nil => exact ⟨L, rfl⟩
    | cons w l =>
      have hw : ∀ e, w ≠ W.link e 100 ∧ w ≠ W.user 100 e := by
        intro e
        constructor
        · rintro rfl; exact (L.buf t e).1 (by rw [hb]; exact List.mem_cons_self)
        · rintro rfl; exact (L.buf t e).2 (by rw [hb]; exact List.mem_cons_self)
      have L' : Stuck { τ with buf := upd τ.buf t l } := by
        refine ⟨L.cons, L.next, L.rest, L.tail, L.pc, fun u e => ?_, L.cbuf⟩
        simp only [upd]; split
        · exact ⟨fun h => (L.buf t e).1 (by rw [hb]; exact List.mem_cons_of_mem _ h),
            fun h => (L.buf t e).2 (by rw [hb]; exact List.mem_cons_of_mem _ h)⟩
        · exact L.buf u e
      have h1 := L'.apply hw
      exact ⟨⟨by rw [apply_cons]; exact L.cons, h1.1, by rw [apply_rest]; exact L.rest, h1.2,
        by rw [apply_pc]; exact L'.pc, by rw [apply_buf]; exact L'.buf, by rw [apply_cbuf]; exact L'.cbuf⟩, by simp⟩
  | cflush =>
    unfold cflush
    cases hb : τ.cbuf with
    | nil => exact ⟨L, rfl⟩
    | cons w l =>
      have hw : ∀ e, w ≠ W.link e 100 ∧ w ≠ W.user 100 e := by
        intro e
        constructor
        · rintro rfl; exact (L.cbuf e).1 (by rw [hb]; exact List.mem_cons_self)
        · rintro rfl; exact (L.cbuf e).2 (by rw [hb]; exact List.mem_cons_self)
      have L' : Stuck { τ with cbuf := l } :=
        ⟨L.cons, L.next, L.rest, L.tail, L.pc, L.buf, fun e =>
          ⟨fun h => (L.cbuf e).1 (by rw [hb]; exact List.mem_cons_of_mem _ h),
            fun h => (L.cbuf e).2 (by rw [hb]; exact List.mem_cons_of_mem _ h)⟩⟩
      have h1 := L'.apply hw
      exact ⟨⟨by rw [apply_cons]; exact L.cons, h1.1, by rw [apply_rest]; exact L.rest, h1.2,
        by rw [apply_pc]; exact L'.pc, by rw [apply_buf]; exact L'.buf, by rw [apply_cbuf]; exact L'.cbuf⟩, by simp⟩
  | @write t a v h1 h2 =>
    have ha : (100 : Nat) ≠ a := by rintro rfl; exact h2 L.flight
    refine ⟨⟨L.cons, L.next, L.rest, L.tail, L.pc, fun u e => ?_, L.cbuf⟩, rfl⟩
    simp only [upd]; split
    · simp only [List.mem_append, not_or, List.mem_singleton]
      exact ⟨⟨(L.buf t e).1, by simp⟩, (L.buf t e).2, fun h => by cases h; exact ha rfl⟩
    · exact L.buf u e
  | @cwrite a v h2 =>
    have ha : (100 : Nat) ≠ a := by rintro rfl; exact h2 L.flight
    refine ⟨⟨L.cons, L.next, L.rest, L.tail, L.pc, L.buf, fun e => ?_⟩, rfl⟩
    simp only [List.mem_append, not_or, List.mem_singleton]
    exact ⟨⟨(L.cbuf e).1, by simp⟩, (L.cbuf e).2, fun h => by cases h; exact ha rfl⟩

theorem Stuck.steps {τ τ' : T} (L : Stuck τ) (h : Steps false τ τ') : Stuck τ' ∧ τ'.out = τ.out := by
  induction h with
  | refl => exact ⟨L, rfl⟩
  | step _ st ih =>
    obtain ⟨L1, e1⟩ := ih
    obtain ⟨L2, e2⟩ := L1.step st
    exact ⟨L2, e2.trans e1⟩

theorem stuck_state : ∃ τ, Reach false τ ∧ (∀ t, τ.pc t = .idle ∧ τ.buf t = []) ∧ τ.cbuf = [] ∧
    τ.cons = .walk 100 200 100 ∧ τ.next 100 = 0 ∧ τ.tail = 0 ∧ τ.pushed = [(1, 100), (2, 200)] ∧ τ.out = [] := by
  have h := two_both false
  -- thread 1 swaps the tail, its store into 100 is delayed
  have h := h.prod (Or.inl rfl)
  have h := h.prod (Or.inl rfl)
  -- thread 2 pushes 200 and links it after 100
  have h := h.prod (Or.inr rfl)
  have h := h.flush (Or.inr rfl)
  have h := h.prod (Or.inr rfl)
  have h := h.prod (Or.inr rfl)
  have h := h.flush (Or.inr rfl)
  -- thread 1 finishes
  have h := h.prod (Or.inl rfl)
  have h := h.flush (Or.inl rfl)
  have h := h.flush (Or.inl rfl)
  -- the consumer
  have h := h.cons rfl
  have h := h.cons rfl
  have h := h.cons rfl
  have h := h.cflush
  have h := h.cons rfl
  have hq := h.all (fun p b => p = .idle ∧ b = []) ⟨rfl, rfl⟩ ⟨rfl, rfl⟩ ⟨rfl, rfl⟩
  exact ⟨_, h.1, hq, rfl, rfl, rfl, rfl, rfl, rfl⟩

/-- C64 is false when the swap of the tail may overtake the store of `NULL` into the new entry, mpscf_queue.h 157-160:
the late store erases the link of the next entry; every push is finished, all the buffers are empty, and the consumer
spins for ever in `sctk_mpscf_queue_wait_until_end_is`. -/
theorem C64_refuted_stuck : ∃ τ, Reach false τ ∧ (∀ t, τ.pc t = .idle ∧ τ.buf t = []) ∧ τ.cbuf = [] ∧
    τ.pushed = [(1, 100), (2, 200)] ∧
    ∀ τ', Steps false τ τ' → τ'.cons = .walk 100 200 100 ∧ τ'.next 100 = 0 ∧ τ'.out = [] := by
  obtain ⟨τ, h, hq, h1, h2, h3, h4, h5, h6⟩ := stuck_state
  refine ⟨τ, h, hq, h1, h5, fun τ' st => ?_⟩
  have L : Stuck τ :=
    { cons := h2
      next := h3
      rest := by unfold rest; rw [h5, h6]; simp
      tail := by rw [h4]; omega
      pc := fun t e => by rw [(hq t).1]; simp
      buf := fun t e => by rw [(hq t).2]; simp
      cbuf := fun e => by rw [h1]; simp }
  have := L.steps st
  exact ⟨this.1.cons, this.1.next, by rw [this.2, h6]⟩

/-- The hypotheses of the theorems: with waiting swaps, a state where the consumer has a delayed store of the head, the
thread 2 has swapped the tail and nothing was delivered. -/
theorem sample : ∃ τ, Reach true τ ∧ τ.pushed = [(1, 100), (2, 200)] ∧ τ.out = [] ∧ τ.cbuf = [W.headNull] ∧
    τ.pc 2 = .link 200 100 ∧ τ.cons = .swapTail 100 := by
  have h := two_starts true
  have h := h.step (Step.prod 1)
  have h := h.step (Step.flush 1)
  have h := h.step (Step.prod 1)
  have h := h.step (Step.prod 1)
  have h := h.step (Step.flush 1)
  have h := h.step (Step.cons rfl)
  have h := h.step (Step.cons rfl)
  have h := h.step (Step.cons rfl)
  have h := h.step (Step.prod 2)
  have h := h.step (Step.flush 2)
  have h := h.step (Step.prod 2)
  exact ⟨_, h, rfl, rfl, rfl, rfl, rfl⟩

/-- The hypotheses of `C64_nothing_lost` and `C64_drain_ends`: the push of 100 is settled, the consumer has not looked
yet, and the thread 2 has a delayed store into its new entry. -/
example : ∃ τ, Reach true τ ∧ Settled τ ∧ τ.cons = .idle ∧ τ.pushed = [(1, 100)] ∧ τ.buf 2 = [W.clear 200] := by
  have h := two_both true
  have h := h.prod (Or.inl rfl)
  have h := h.flush (Or.inl rfl)
  have h := h.prod (Or.inl rfl)
  have h := h.prod (Or.inl rfl)
  have h := h.flush (Or.inl rfl)
  have h := h.prod (Or.inr rfl)
  have hq := h.all (fun p b => (∀ e q, p ≠ .link e q) ∧ ∀ e q, W.link e q ∉ b) ⟨by simp, by simp⟩
    ⟨fun _ _ h => (by cases h), fun _ _ => List.not_mem_nil⟩
    ⟨fun _ _ h => (by cases h), fun _ _ => by show _ ∉ [W.clear 200]; simp⟩
  exact ⟨_, h.1, hq, rfl, rfl, rfl⟩

end QueueTso
end MpcAlloc
