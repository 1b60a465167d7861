import Verif.ConcReach

/-
A thread that runs alone ends its call.
-/

namespace MpcAlloc

open Queue (CPC PPC upd upd_same upd_ne InFlight)

/-- `n` steps of thread `t` that do not end its call take `k` to `k'`. -/
inductive MRun (C : Config) (t : Nat) : Nat → MS → MS → Prop
  | nil {k : MS} : MRun C t 0 k k
  | cons {n : Nat} {k k1 k2 : MS} : mstep C k t = .ok (k1, none) → MRun C t n k1 k2 → MRun C t (n + 1) k k2

theorem MRun.one {C : Config} {t : Nat} {k k' : MS} (e : mstep C k t = .ok (k', none)) : MRun C t 1 k k' := .cons e .nil

theorem MRun.trans {C : Config} {t n m : Nat} {k k1 k2 : MS} (h : MRun C t n k k1) (h' : MRun C t m k1 k2) :
    MRun C t (m + n) k k2 := by
  induction h with
  | nil => exact h'
  | cons e _ ih => exact .cons e (ih h')

theorem MRun.alone {C : Config} {t n : Nat} {k k1 : MS} (h : MRun C t n k k1) (m : Nat) :
    alone C t (m + n) k = alone C t m k1 := by
  induction h with
  | nil => rfl
  | cons e _ ih =>
    rw [← Nat.add_assoc]
    show (mstep C _ t >>= _) = _
    rw [e, Outcome.ok_bind]
    exact ih

/-- A step of the purge. -/
theorem mstep_purge {C : Config} {k : MS} {t : Nat} {j : Job} {c : CPC} (hpc : k.pc t = .purge j c) :
    mstep C k t = (purgeStep C k t j c >>= fun k => .ok (k, none)) := by
  unfold mstep
  rw [hpc]
  rfl

/-- No other thread is between the two effects of a push to `t`. -/
def NoLink (k : MS) (t : Nat) : Prop := ∀ u e p r, k.pc u ≠ .push t (.link e p) r

theorem NoLink.go {k k' : MS} {t : Nat} (h : NoLink k t) {j : Job} (hp : ∀ u, u ≠ t → k'.pc u = k.pc u) (hj : j.Pos (k'.pc t)) :
    NoLink k' t := by
  intro u e p r hu
  by_cases h' : u = t
  · rw [h'] at hu
    rcases hj with hj | ⟨c, hj⟩
    · rw [hj] at hu; cases j <;> cases hu
    · rw [hj] at hu; cases hu
  · rw [hp u h'] at hu
    exact h u e p r hu

theorem QRel.noLink {k : MS} {t : Nat} {q : Queue.S} (h : QRel k t q) (hn : NoLink k t) : ∀ u e p, q.prod u ≠ .link e p := by
  intro u e p hu
  rw [h.prod] at hu
  simp only [projP] at hu
  split at hu
  · rename_i j c r he
    split at hu
    · rename_i hj
      subst hj; subst hu
      exact hn _ _ _ _ he
    · cases hu
  · cases hu

/-- A step of the purge other than the free of an entry, next to the step of Queue.lean. -/
theorem purge_sim {C : Config} {k : MS} {t : Nat} {j : Job} {c : CPC} {q q1 : Queue.S} (hpc : k.pc t = .purge j c)
    (h : QRel k t q) (h0 : c ≠ .idle) (h1 : ∀ a b, c ≠ .dfree a b) (e : Queue.cstep q = .ok q1) :
    ∃ k', purgeStep C k t j c = .ok k' ∧ (∀ u, u ≠ t → k'.pc u = k.pc u) ∧ k'.G = k.G ∧ QRel k' t q1 ∧
      (k'.pc t = j.next ∧ q1.cons = .idle ∨ k'.pc t = .purge j q1.cons ∧ q1.cons ≠ .idle) := by
  have hc : q.cons = c := by rw [h.cons, hpc]; rfl
  have hpos : j.Pos (k.pc t) := Or.inr ⟨_, hpc⟩
  -- the steps that only move the thread
  have move : ∀ c', c' ≠ .idle → q1 = { q with cons := c' } → purgeStep C k t j c = .ok (k.go t (.purge j c')) →
      ∃ k', purgeStep C k t j c = .ok k' ∧ (∀ u, u ≠ t → k'.pc u = k.pc u) ∧ k'.G = k.G ∧ QRel k' t q1 ∧
      (k'.pc t = j.next ∧ q1.cons = .idle ∨ k'.pc t = .purge j q1.cons ∧ q1.cons ≠ .idle) := by
    intro c' hi e1 e2
    refine ⟨_, e2, fun u hu => upd_ne hu, rfl, ?_, Or.inr ⟨by rw [e1]; exact upd_same _ _ _, by rw [e1]; exact hi⟩⟩
    rw [e1]
    refine ⟨h.head, h.tail, h.next, ?_, ?_, h.fl⟩
    · show q.prod = _
      rw [h.prod]
      show _ = fun v => projP t (upd k.pc t _ v)
      rw [proj_upd, show projP t (.purge j c') = projP t (k.pc t) by rw [hpc]; rfl]
      exact (upd_self (fun u => projP t (k.pc u)) t).symm
    · show c' = projC (upd k.pc t _ t)
      rw [upd_same]; rfl
  have hprod : ∀ c', projP t c' = projP t (k.pc t) → q.prod = fun v => projP t (upd k.pc t c' v) := by
    intro c' hc'
    rw [h.prod, proj_upd, hc']
    exact (upd_self (fun u => projP t (k.pc u)) t).symm
  unfold Queue.cstep at e
  rw [hc] at e
  cases c with
  | idle => exact absurd rfl h0
  | dfree a b => exact absurd rfl (h1 a b)
  | load =>
    refine move (if q.head = 0 then .dread 0 else .clearHead q.head) (by split <;> simp) (Outcome.ok.inj e).symm ?_
    rw [h.head]; rfl
  | clearHead hd =>
    refine ⟨_, rfl, fun u hu => upd_ne hu, rfl, ?_, Or.inr ⟨?_, ?_⟩⟩
    · rw [← Outcome.ok.inj e]
      exact ⟨(upd_same _ _ _).symm, h.tail, h.next, hprod _ (by rw [hpc]; rfl), by
        show CPC.swapTail hd = projC (upd k.pc t _ t)
        rw [upd_same]; rfl, h.fl⟩
    · rw [← Outcome.ok.inj e]; exact upd_same _ _ _
    · rw [← Outcome.ok.inj e]; simp
  | swapTail hd =>
    refine ⟨_, rfl, fun u hu => upd_ne hu, rfl, ?_, Or.inr ⟨?_, ?_⟩⟩
    · rw [← Outcome.ok.inj e]
      exact ⟨h.head, (upd_same _ _ _).symm, h.next, hprod _ (by rw [hpc]; rfl), by
        show CPC.walk hd q.tail hd = projC (upd k.pc t _ t)
        rw [upd_same, h.tail]; rfl, h.fl⟩
    · rw [← Outcome.ok.inj e]
      show upd k.pc t _ t = MPc.purge j (.walk hd q.tail hd)
      rw [upd_same, h.tail]
    · rw [← Outcome.ok.inj e]; simp
  | walk hd tl cur =>
    simp only at e
    unfold purgeStep at move ⊢
    simp only at move ⊢
    by_cases ht : cur = tl
    · rw [if_pos ht] at e ⊢
      rw [if_pos ht] at move
      exact move (.dread hd) (by simp) (Outcome.ok.inj e).symm rfl
    · rw [if_neg ht] at e ⊢
      rw [if_neg ht] at move
      by_cases hz : cur = 0
      · rw [if_pos hz] at e; cases e
      · rw [if_neg hz] at e ⊢
        rw [if_neg hz] at move
        rw [show q.next cur = k.nxt cur by rw [h.next]] at e
        by_cases hn : k.nxt cur = 0
        · rw [if_pos hn] at e ⊢
          refine ⟨_, rfl, fun _ _ => rfl, rfl, ?_, Or.inr ⟨?_, ?_⟩⟩
          · rw [← Outcome.ok.inj e]; exact h
          · rw [← Outcome.ok.inj e, hc]; exact hpc
          · rw [← Outcome.ok.inj e, hc]; simp
        · rw [if_neg hn] at e ⊢
          rw [if_neg hn] at move
          exact move (.adv hd tl cur) (by simp) (Outcome.ok.inj e).symm rfl
  | adv hd tl cur =>
    simp only at e
    unfold purgeStep at move ⊢
    simp only at move ⊢
    by_cases hz : cur = 0
    · rw [if_pos hz] at e; cases e
    · rw [if_neg hz] at e ⊢
      rw [if_neg hz] at move
      rw [show q.next cur = k.nxt cur by rw [h.next]] at e
      exact move (.walk hd tl (k.nxt cur)) (by simp) (Outcome.ok.inj e).symm rfl
  | dread cur =>
    simp only at e
    rw [show q.next cur = k.nxt cur by rw [h.next]] at e
    by_cases hz : cur = 0
    · rw [if_pos hz] at e
      refine ⟨k.go t j.next, by unfold purgeStep; simp only; rw [if_pos hz], fun u hu => upd_ne hu, rfl, ?_,
        Or.inl ⟨upd_same _ _ _, by rw [← Outcome.ok.inj e]⟩⟩
      rw [← Outcome.ok.inj e]
      refine ⟨h.head, h.tail, h.next, hprod _ (by rw [hpc]; cases j <;> rfl), ?_, h.fl⟩
      show CPC.idle = projC (upd k.pc t _ t)
      rw [upd_same]; cases j <;> rfl
    · rw [if_neg hz] at e
      exact move (.dfree cur (k.nxt cur)) (by simp) (Outcome.ok.inj e).symm (by
        unfold purgeStep; simp only; rw [if_neg hz])

/-- Up to the first free, or the end of the purge. -/
theorem purge_walk {C : Config} {Ω : Env} {cl : Prop} {E : EndSet} {t : Nat} {j : Job} : ∀ (n : Nat) {k : MS} {c : CPC} {q s : Queue.S},
    MInv Ω cl E k → NoLink k t → k.pc t = .purge j c → c ≠ .idle → QRel k t q → Queue.csteps n q = .ok s → s.cons = .idle →
    ∃ m k', MRun C t m k k' ∧ MInv Ω cl E k' ∧ NoLink k' t ∧ k'.G = k.G ∧ (k'.pc t = j.next ∨ ∃ a b, k'.pc t = .purge j (.dfree a b)) := by
  intro n
  induction n with
  | zero =>
    intro k c q s I hn hpc h0 h e hs
    obtain rfl := Outcome.ok.inj e
    rw [h.cons, hpc] at hs
    exact absurd hs h0
  | succ n ih =>
    intro k c q s I hn hpc h0 h e hs
    by_cases h1 : ∃ a b, c = .dfree a b
    · obtain ⟨a, b, rfl⟩ := h1
      exact ⟨0, k, .nil, I, hn, rfl, Or.inr ⟨a, b, hpc⟩⟩
    obtain ⟨q1, e1, e2⟩ := Outcome.bind_eq_ok e
    obtain ⟨k1, f1, f2, f5, f3, f4⟩ := purge_sim (C := C) hpc h h0 (fun a b hab => h1 ⟨a, b, hab⟩) e1
    obtain ⟨k1', g1, I1, _⟩ := I.purgeStep (W := fun _ => True) (C := C) hpc
    obtain rfl : k1' = k1 := Outcome.ok.inj (g1.symm.trans f1)
    have st : mstep C k t = .ok (k1', none) := by rw [mstep_purge hpc, f1]; rfl
    rcases f4 with f4 | f4
    · exact ⟨1, k1', .one st, I1, hn.go f2 (j := j) (Or.inl f4.1), f5, Or.inl f4.1⟩
    · obtain ⟨m, k', r1, r2, r3, r5, r4⟩ := ih I1 (hn.go f2 (j := j) (Or.inr ⟨_, f4.1⟩)) f4.1 f4.2 f3 e2 hs
      exact ⟨m + 1, k', .cons st r1, r2, r3, r5.trans f5, r4⟩

/-- The free of an entry. -/
theorem purge_dfree {C : Config} {Ω : Env} {cl : Prop} {E : EndSet} {t : Nat} {j : Job} {k : MS} {a b : Nat} (I : MInv Ω cl E k)
    (hpc : k.pc t = .purge j (.dfree a b)) :
    ∃ k' l, mstep C k t = .ok (k', none) ∧ MInv Ω cl E k' ∧ (∀ u, u ≠ t → k'.pc u = k.pc u) ∧ k'.pc t = .purge j (.dread b) ∧
      k'.G = k.G.drop a ∧ l ∈ k.G.queued ∧ l.owner = t ∧ l.ptr = a ∧ readLE k.w.mem (a + 8) 8 = a := by
  obtain ⟨k', e, I', _⟩ := I.dfree (W := fun _ => True) (C := C) hpc
  obtain ⟨q, R, h⟩ := I.q t
  have hcons : q.cons = .dfree a b := by rw [h.cons, hpc]; rfl
  obtain ⟨f1, f2, _⟩ := Queue.inFlight_dfree R hcons
  obtain ⟨l, hl, hlo, hlp⟩ := (h.fl a).1 f1
  have hptr : readLE k.w.mem (a + 8) 8 = a := by
    rw [← hlp]
    refine I.ptr l hl (fun u hu => ?_)
    have := f2 u
    rw [h.prod, ← hlp, ← hlo] at this
    exact this hu
  refine ⟨k', l, by rw [mstep_purge hpc, e]; rfl, I', ?_, ?_, ?_, hl, hlo, hlp, hptr⟩
  all_goals
    unfold purgeStep at e
    simp only at e
    obtain ⟨u1, _, e⟩ := Outcome.bind_eq_ok e
    obtain ⟨u2, _, e⟩ := Outcome.bind_eq_ok e
    rw [← Outcome.ok.inj e]
  · exact fun u hu => upd_ne hu
  · exact upd_same _ _ _
  · show k.G.drop _ = _
    rw [hptr]

theorem length_filter_lt {α : Type} {p q : α → Bool} {l : List α} {a : α} (h : ∀ x ∈ l, p x = true → q x = true) (ha : a ∈ l)
    (h1 : q a = true) (h2 : p a = false) : (l.filter p).length < (l.filter q).length := by
  induction l with
  | nil => cases ha
  | cons b l ih =>
    have hle : (l.filter p).length ≤ (l.filter q).length := by
      have : l.filter p = (l.filter q).filter p := by
        rw [List.filter_filter]
        refine List.filter_congr (fun x hx => ?_)
        cases hp : p x with
        | false => rfl
        | true => rw [h x (List.mem_cons_of_mem _ hx) hp]; rfl
      rw [this]
      exact List.length_filter_le _ _
    rcases List.mem_cons.1 ha with rfl | ha
    · rw [List.filter_cons_of_pos h1, List.filter_cons_of_neg (by rw [h2]; simp)]
      simp only [List.length_cons]
      omega
    · have := ih (fun x hx => h x (List.mem_cons_of_mem _ hx)) ha
      by_cases hp : p b = true
      · rw [List.filter_cons_of_pos hp, List.filter_cons_of_pos (h b (by simp) hp)]
        simp only [List.length_cons]; omega
      · rw [List.filter_cons_of_neg hp]
        by_cases hq : q b = true
        · rw [List.filter_cons_of_pos hq]; simp only [List.length_cons]; omega
        · rw [List.filter_cons_of_neg hq]; exact this

/-- Once no push is between its two effects, the purge ends. `N` is the number of queued blocks of the thread. -/
theorem purge_ends {C : Config} {Ω : Env} {cl : Prop} {E : EndSet} {t : Nat} {j : Job} : ∀ (N : Nat) {k : MS} {c : CPC},
    (k.G.queued.filter (fun l => decide (l.owner = t))).length = N →
    MInv Ω cl E k → NoLink k t → k.pc t = .purge j c → c ≠ .idle →
    ∃ m k', MRun C t m k k' ∧ MInv Ω cl E k' ∧ NoLink k' t ∧ k'.pc t = j.next := by
  intro N
  induction N using Nat.strongRecOn with
  | _ N ih =>
    intro k c hN I hn hpc h0
    obtain ⟨q, R, h⟩ := I.q t
    obtain ⟨n, s, _, es, hs, _⟩ := (Queue.C27_drain_ends R).2 (h.noLink hn)
    obtain ⟨m1, k1, r1, I1, n1, hG1, hp1⟩ := purge_walk (C := C) n I hn hpc h0 h es hs
    rcases hp1 with hp1 | ⟨a, b, hp1⟩
    · exact ⟨m1, k1, r1, I1, n1, hp1⟩
    obtain ⟨k2, l, e2, I2, o2, hp2, hG2, hl, hlo, hla, _⟩ := purge_dfree (C := C) I1 hp1
    obtain ⟨m3, k3, r3, I3, n3, hp3⟩ := ih _ (by
      rw [← hN, ← hG1]
      rw [hG2]
      show ((k1.G.queued.filter _).filter _).length < _
      rw [List.filter_filter]
      refine length_filter_lt (a := l) (fun x _ hx => ?_) hl ?_ ?_
      · simp only [Bool.and_eq_true] at hx; exact hx.1
      · simpa using hlo
      · simp [hla]) rfl I2 (n1.go o2 (j := j) (Or.inr ⟨_, hp2⟩)) hp2 (by simp)
    exact ⟨_, k3, r1.trans (.cons e2 r3), I3, n3, hp3⟩

/-- Same, from the start of the purge. -/
theorem purge_all {C : Config} {Ω : Env} {cl : Prop} {E : EndSet} {t : Nat} {j : Job} {k : MS} {c : CPC} (I : MInv Ω cl E k) (hn : NoLink k t)
    (hpc : k.pc t = .purge j c) : ∃ m k', MRun C t m k k' ∧ MInv Ω cl E k' ∧ NoLink k' t ∧ k'.pc t = j.next := by
  by_cases h0 : c = .idle
  · subst h0
    obtain ⟨k1, e, I1, _⟩ := I.purgeStep (W := fun _ => True) (C := C) hpc
    have st : mstep C k t = .ok (k1, none) := by rw [mstep_purge hpc, e]; rfl
    unfold purgeStep at e
    have e := Outcome.ok.inj e
    split at e
    · exact ⟨1, k1, .one st, I1, hn.go (j := j) (fun u hu => by rw [← e]; exact upd_ne hu) (Or.inl (by rw [← e]; exact upd_same _ _ _)),
        by rw [← e]; exact upd_same _ _ _⟩
    · have hp1 : k1.pc t = .purge j .load := by rw [← e]; exact upd_same _ _ _
      obtain ⟨m, k', r, h1, h2, h3⟩ := purge_ends (C := C) _ rfl I1
        (hn.go (j := j) (fun u hu => by rw [← e]; exact upd_ne hu) (Or.inr ⟨_, hp1⟩)) hp1 (by simp)
      exact ⟨m + 1, k', .cons st r, h1, h2, h3⟩
  · exact purge_ends _ rfl I hn hpc h0

/-- What the thread reaches when it runs alone: the end of its call, or a request without memory. -/
def Ends (C : Config) (k : MS) (t : Nat) : Prop :=
  ∃ n, (∃ k' r, alone C t n k = .ok (k', some r)) ∨ (∃ k', MRun C t n k k' ∧ ¬ StepMem k' t)

theorem Ends.run {C : Config} {k k1 : MS} {t m : Nat} (h : Ends C k1 t) (r : MRun C t m k k1) : Ends C k t := by
  obtain ⟨n, ⟨k', r', e⟩ | ⟨k', r', e⟩⟩ := h
  · exact ⟨n + m, Or.inl ⟨k', r', by rw [r.alone, e]⟩⟩
  · exact ⟨_, Or.inr ⟨k', r.trans r', e⟩⟩

theorem Ends.ret {C : Config} {k k1 : MS} {t r : Nat} (e : mstep C k t = .ok (k1, some r)) : Ends C k t := by
  refine ⟨1, Or.inl ⟨k1, r, ?_⟩⟩
  show (mstep C k t >>= _) = _
  rw [e]
  rfl

/-- Where a step that does not end the call takes the thread. -/
def Goes : MPc → MPc → Prop
  | .alloc _ n .zero, c => ∃ r, c = .zero r n
  | .alloc _ n (.move p), c => ∃ r, c = .copy r p n
  | .copy r p _, c => c = .purge (.free p r) .idle
  | .look p r, c => ∃ i, c = .lfree i p r ∨ c = .push i (.clear p) r
  | .push i (.clear e) r, c => c = .push i (.swap e) r
  | .push i (.swap e) r, c => ∃ p, c = .push i (.link e p) r
  | .rlook p b n, c => (∃ i, c = .rlocal i p b n) ∨ c = .purge (.alloc b n (.move p)) .idle
  | .idle, _ => True
  | .purge _ _, _ => True
  | _, _ => False

/-- What a step of thread `t` leaves alone, and where it takes the thread. -/
structure Shape (k k' : MS) (t : Nat) (o : Option Nat) : Prop where
  pc : ∀ u, u ≠ t → k'.pc u = k.pc u
  call : k'.call = k.call
  next : o = none → Goes (k.pc t) (k'.pc t)

theorem Shape.ret {k k1 : MS} {t r : Nat} (h1 : k1.pc = k.pc) (h2 : k1.call = k.call) : Shape k (k1.ret t r).1 t (k1.ret t r).2 :=
  ⟨fun u hu => by
    show upd k1.pc t _ u = _
    rw [upd_ne hu, h1], h2, fun h => absurd h (by simp [MS.ret])⟩

theorem Shape.go {k k1 : MS} {t : Nat} {c : MPc} (h1 : k1.pc = k.pc) (h2 : k1.call = k.call) (h3 : Goes (k.pc t) c) :
    Shape k (k1.go t c) t none :=
  ⟨fun u hu => by
    show upd k1.pc t _ u = _
    rw [upd_ne hu, h1], h2, fun _ => by
    show Goes _ (upd k1.pc t c t)
    rw [upd_same]; exact h3⟩

theorem look_same {k k' : MS} {p : Nat} {x : Option (Nat × Nat)} (e : k.look p = .ok (k', x)) :
    k'.pc = k.pc ∧ k'.call = k.call := by
  unfold MS.look at e
  obtain ⟨⟨R, b⟩, _, e⟩ := Outcome.bind_eq_ok e
  simp only at e
  split at e
  · rw [← (Prod.mk.inj (Outcome.ok.inj e)).1]; exact ⟨rfl, rfl⟩
  · split at e
    · cases e
    · obtain ⟨i, _, e⟩ := Outcome.bind_eq_ok e
      rw [← (Prod.mk.inj (Outcome.ok.inj e)).1]; exact ⟨rfl, rfl⟩

theorem mstep_shape {C : Config} {k k' : MS} {t : Nat} {o : Option Nat} (e : mstep C k t = .ok (k', o)) : Shape k k' t o := by
  unfold mstep at e
  cases hpc : k.pc t with
  | idle =>
    rw [hpc] at e
    obtain ⟨rfl, rfl⟩ := Prod.mk.inj (Outcome.ok.inj e)
    exact ⟨fun _ _ => rfl, rfl, fun _ => by rw [hpc]; trivial⟩
  | purge j c =>
    rw [hpc] at e
    obtain ⟨k1, e1, e⟩ := Outcome.bind_eq_ok e
    obtain ⟨rfl, rfl⟩ := Prod.mk.inj (Outcome.ok.inj e)
    have key : (∀ u, u ≠ t → k1.pc u = k.pc u) ∧ k1.call = k.call := by
      unfold purgeStep at e1
      split at e1
      · have e1 := Outcome.ok.inj e1
        split at e1 <;> (rw [← e1]; exact ⟨fun u hu => upd_ne hu, rfl⟩)
      · rw [← Outcome.ok.inj e1]; exact ⟨fun u hu => upd_ne hu, rfl⟩
      · rw [← Outcome.ok.inj e1]; exact ⟨fun u hu => upd_ne hu, rfl⟩
      · rw [← Outcome.ok.inj e1]; exact ⟨fun u hu => upd_ne hu, rfl⟩
      · split at e1
        · rw [← Outcome.ok.inj e1]; exact ⟨fun u hu => upd_ne hu, rfl⟩
        · split at e1
          · cases e1
          · have e1 := Outcome.ok.inj e1
            split at e1
            · rw [← e1]; exact ⟨fun _ _ => rfl, rfl⟩
            · rw [← e1]; exact ⟨fun u hu => upd_ne hu, rfl⟩
      · split at e1
        · cases e1
        · rw [← Outcome.ok.inj e1]; exact ⟨fun u hu => upd_ne hu, rfl⟩
      · have e1 := Outcome.ok.inj e1
        split at e1 <;> (rw [← e1]; exact ⟨fun u hu => upd_ne hu, rfl⟩)
      · simp only at e1
        obtain ⟨u1, _, e1⟩ := Outcome.bind_eq_ok e1
        obtain ⟨u2, _, e1⟩ := Outcome.bind_eq_ok e1
        rw [← Outcome.ok.inj e1]; exact ⟨fun u hu => upd_ne hu, rfl⟩
    exact ⟨key.1, key.2, fun _ => by rw [hpc]; trivial⟩
  | alloc b n a =>
    rw [hpc] at e
    simp only at e
    obtain ⟨u1, _, e⟩ := Outcome.bind_eq_ok e
    obtain ⟨⟨u2, r⟩, _, e⟩ := Outcome.bind_eq_ok e
    simp only at e
    cases a with
    | ret =>
      obtain ⟨rfl, rfl⟩ := Prod.mk.inj (Outcome.ok.inj e)
      exact Shape.ret rfl rfl
    | zero =>
      obtain ⟨rfl, rfl⟩ := Prod.mk.inj (Outcome.ok.inj e)
      exact Shape.go rfl rfl (by rw [hpc]; exact ⟨r, rfl⟩)
    | move p =>
      obtain ⟨rfl, rfl⟩ := Prod.mk.inj (Outcome.ok.inj e)
      exact Shape.go rfl rfl (by rw [hpc]; exact ⟨r, rfl⟩)
  | zero r n =>
    rw [hpc] at e
    simp only at e
    obtain ⟨m, _, e⟩ := Outcome.bind_eq_ok e
    obtain ⟨rfl, rfl⟩ := Prod.mk.inj (Outcome.ok.inj e)
    exact Shape.ret rfl rfl
  | copy r p n =>
    rw [hpc] at e
    simp only at e
    obtain ⟨m, _, e⟩ := Outcome.bind_eq_ok e
    obtain ⟨rfl, rfl⟩ := Prod.mk.inj (Outcome.ok.inj e)
    exact Shape.go rfl rfl (by rw [hpc]; rfl)
  | look p r =>
    rw [hpc] at e
    simp only at e
    split at e
    · obtain ⟨rfl, rfl⟩ := Prod.mk.inj (Outcome.ok.inj e)
      exact Shape.ret rfl rfl
    · obtain ⟨u1, _, e⟩ := Outcome.bind_eq_ok e
      obtain ⟨⟨k1, x⟩, e1, e⟩ := Outcome.bind_eq_ok e
      obtain ⟨h1, h2⟩ := look_same e1
      cases x with
      | none =>
        simp only at e
        split at e
        · cases e
        · obtain ⟨rfl, rfl⟩ := Prod.mk.inj (Outcome.ok.inj e)
          exact Shape.ret h1 h2
      | some v =>
        obtain ⟨a, i⟩ := v
        simp only at e
        obtain ⟨v, _, e⟩ := Outcome.bind_eq_ok e
        split at e
        · obtain ⟨rfl, rfl⟩ := Prod.mk.inj (Outcome.ok.inj e)
          exact Shape.go h1 h2 (by rw [hpc]; exact ⟨i, Or.inl rfl⟩)
        · obtain ⟨rfl, rfl⟩ := Prod.mk.inj (Outcome.ok.inj e)
          exact Shape.go h1 h2 (by rw [hpc]; exact ⟨i, Or.inr rfl⟩)
  | lfree i p r =>
    rw [hpc] at e
    simp only at e
    obtain ⟨u1, _, e⟩ := Outcome.bind_eq_ok e
    obtain ⟨u2, _, e⟩ := Outcome.bind_eq_ok e
    obtain ⟨rfl, rfl⟩ := Prod.mk.inj (Outcome.ok.inj e)
    exact Shape.ret rfl rfl
  | push i c r =>
    rw [hpc] at e
    simp only at e
    unfold pushStep at e
    cases c with
    | idle =>
      obtain ⟨rfl, rfl⟩ := Prod.mk.inj (Outcome.ok.inj e)
      exact Shape.ret rfl rfl
    | clear f =>
      simp only at e
      obtain ⟨v, _, e⟩ := Outcome.bind_eq_ok e
      split at e
      · cases e
      · obtain ⟨rfl, rfl⟩ := Prod.mk.inj (Outcome.ok.inj e)
        exact Shape.go rfl rfl (by rw [hpc]; rfl)
    | swap f =>
      obtain ⟨rfl, rfl⟩ := Prod.mk.inj (Outcome.ok.inj e)
      exact Shape.go rfl rfl (by rw [hpc]; exact ⟨_, rfl⟩)
    | link f p =>
      simp only at e
      split at e
      · obtain ⟨rfl, rfl⟩ := Prod.mk.inj (Outcome.ok.inj e)
        exact Shape.ret rfl rfl
      · obtain ⟨rfl, rfl⟩ := Prod.mk.inj (Outcome.ok.inj e)
        exact Shape.ret rfl rfl
  | rlook p b n =>
    rw [hpc] at e
    simp only at e
    obtain ⟨u1, _, e⟩ := Outcome.bind_eq_ok e
    obtain ⟨⟨k1, x⟩, e1, e⟩ := Outcome.bind_eq_ok e
    obtain ⟨h1, h2⟩ := look_same e1
    cases x with
    | none => cases e
    | some v =>
      obtain ⟨a, i⟩ := v
      simp only at e
      obtain ⟨v, _, e⟩ := Outcome.bind_eq_ok e
      split at e
      · obtain ⟨rfl, rfl⟩ := Prod.mk.inj (Outcome.ok.inj e)
        exact Shape.go h1 h2 (by rw [hpc]; exact Or.inl ⟨i, rfl⟩)
      · obtain ⟨rfl, rfl⟩ := Prod.mk.inj (Outcome.ok.inj e)
        exact Shape.go h1 h2 (by rw [hpc]; exact Or.inr rfl)
  | rlocal i p b n =>
    rw [hpc] at e
    simp only at e
    obtain ⟨u1, _, e⟩ := Outcome.bind_eq_ok e
    obtain ⟨⟨u2, r⟩, _, e⟩ := Outcome.bind_eq_ok e
    obtain ⟨rfl, rfl⟩ := Prod.mk.inj (Outcome.ok.inj e)
    exact Shape.ret rfl rfl

/-- The call ends if it ends from wherever the next step takes it. -/
theorem MInv.ends_step {Ω : Env} {cl : Prop} {E : EndSet} {C : Config} {k : MS} (hf : C.reallocFactor ≠ 0) (I : MInv Ω cl E k) {t : Nat}
    (h : ∀ k', MInv Ω cl E k' → (∀ u, u ≠ t → k'.pc u = k.pc u) → Goes (k.pc t) (k'.pc t) → Ends C k' t) : Ends C k t := by
  rcases mstep_ok hf I t with ⟨h1, _⟩ | ⟨k', o, e, I', _⟩
  · exact ⟨0, Or.inr ⟨k, .nil, h1⟩⟩
  · have S := mstep_shape e
    cases o with
    | some r => exact Ends.ret e
    | none => exact (h k' I' S.pc (S.next rfl)).run (.one e)

theorem MInv.ends_push {Ω : Env} {cl : Prop} {E : EndSet} {C : Config} {k : MS} (hf : C.reallocFactor ≠ 0) (I : MInv Ω cl E k) {t i r : Nat}
    {c : PPC} (hpc : k.pc t = .push i c r) : Ends C k t := by
  have l1 : ∀ (k : MS) e p, MInv Ω cl E k → k.pc t = .push i (.link e p) r → Ends C k t := fun k e p I h =>
    I.ends_step hf (fun k' _ _ g => by rw [h] at g; exact g.elim)
  have l2 : ∀ (k : MS) e, MInv Ω cl E k → k.pc t = .push i (.swap e) r → Ends C k t := fun k e I h =>
    I.ends_step hf (fun k' I' _ g => by rw [h] at g; obtain ⟨p, g⟩ := g; exact l1 k' e p I' g)
  cases c with
  | idle => exact I.ends_step hf (fun k' _ _ g => by rw [hpc] at g; exact g.elim)
  | clear e => exact I.ends_step hf (fun k' I' _ g => by rw [hpc] at g; exact l2 k' e I' g)
  | swap e => exact l2 k e I hpc
  | link e p => exact l1 k e p I hpc

theorem MInv.ends_look {Ω : Env} {cl : Prop} {E : EndSet} {C : Config} {k : MS} (hf : C.reallocFactor ≠ 0) (I : MInv Ω cl E k) {t p r : Nat}
    (hpc : k.pc t = .look p r) : Ends C k t := by
  refine I.ends_step hf (fun k' I' _ g => ?_)
  rw [hpc] at g
  obtain ⟨i, g | g⟩ := g
  · exact I'.ends_step hf (fun k2 _ _ g' => by rw [g] at g'; exact g'.elim)
  · exact I'.ends_push hf g

theorem NoLink.mono {k k' : MS} {t : Nat} (h : NoLink k t) (h1 : ∀ u, u ≠ t → k'.pc u = k.pc u)
    (h2 : ∀ i c r, k'.pc t ≠ .push i c r) : NoLink k' t := by
  intro u e p r hu
  by_cases h' : u = t
  · subst h'; exact h2 _ _ _ hu
  · rw [h1 u h'] at hu; exact h u e p r hu

theorem MInv.ends_free {Ω : Env} {cl : Prop} {E : EndSet} {C : Config} {k : MS} (hf : C.reallocFactor ≠ 0) (I : MInv Ω cl E k) {t p r : Nat}
    {c : CPC} (hn : NoLink k t) (hpc : k.pc t = .purge (.free p r) c) : Ends C k t := by
  obtain ⟨m, k1, r1, I1, _, h1⟩ := purge_all (C := C) I hn hpc
  exact (I1.ends_look hf h1).run r1

theorem MInv.ends_copy {Ω : Env} {cl : Prop} {E : EndSet} {C : Config} {k : MS} (hf : C.reallocFactor ≠ 0) (I : MInv Ω cl E k) {t r p n : Nat}
    (hn : NoLink k t) (hpc : k.pc t = .copy r p n) : Ends C k t := by
  refine I.ends_step hf (fun k' I' h1 g => ?_)
  rw [hpc] at g
  have g : k'.pc t = .purge (.free p r) .idle := g
  exact I'.ends_free hf (hn.mono h1 (by rw [g]; simp)) g

theorem MInv.ends_alloc {Ω : Env} {cl : Prop} {E : EndSet} {C : Config} {k : MS} (hf : C.reallocFactor ≠ 0) (I : MInv Ω cl E k) {t b n : Nat}
    {a : After} (hn : NoLink k t) (hpc : k.pc t = .alloc b n a) : Ends C k t := by
  refine I.ends_step hf (fun k' I' h1 g => ?_)
  rw [hpc] at g
  cases a with
  | ret => exact g.elim
  | zero =>
    obtain ⟨r, g⟩ := g
    exact I'.ends_step hf (fun k2 _ _ g' => by rw [g] at g'; exact g'.elim)
  | move p =>
    obtain ⟨r, g⟩ := g
    exact I'.ends_copy hf (hn.mono h1 (by rw [g]; simp)) g

/-- A call of a thread that runs alone ends, or stops at a request without memory. -/
theorem MInv.ends {Ω : Env} {cl : Prop} {E : EndSet} {C : Config} {k : MS} (hf : C.reallocFactor ≠ 0) (I : MInv Ω cl E k) {t : Nat}
    (hn : NoLink k t) (hpc : k.pc t ≠ .idle) : Ends C k t := by
  have pa : ∀ (k : MS) b n a c, MInv Ω cl E k → NoLink k t → k.pc t = .purge (.alloc b n a) c → Ends C k t := by
    intro k b n a c I hn h
    obtain ⟨m, k1, r1, I1, n1, h1⟩ := purge_all (C := C) I hn h
    exact (I1.ends_alloc hf n1 h1).run r1
  cases h : k.pc t with
  | idle => exact absurd h hpc
  | purge j c =>
    cases j with
    | alloc b n a => exact pa k b n a c I hn h
    | free p r => exact I.ends_free hf hn h
  | alloc b n a => exact I.ends_alloc hf hn h
  | zero r n => exact I.ends_step hf (fun k' _ _ g => by rw [h] at g; exact g.elim)
  | copy r p n => exact I.ends_copy hf hn h
  | look p r => exact I.ends_look hf h
  | lfree i p r => exact I.ends_step hf (fun k' _ _ g => by rw [h] at g; exact g.elim)
  | push i c r => exact I.ends_push hf h
  | rlook p b n =>
    refine I.ends_step hf (fun k' I' h1 g => ?_)
    rw [h] at g
    rcases g with ⟨i, g⟩ | g
    · exact I'.ends_step hf (fun k2 _ _ g' => by rw [g] at g'; exact g'.elim)
    · exact pa k' b n _ _ I' (hn.mono h1 (by rw [g]; simp)) g
  | rlocal i p b n => exact I.ends_step hf (fun k' _ _ g => by rw [h] at g; exact g.elim)

/-- A thread between the two effects of a push ends its call with its next step. -/
theorem link_step {C : Config} {k : MS} {u i e p r : Nat} (h : k.pc u = .push i (.link e p) r) :
    ∃ k', mstep C k u = .ok (k', some r) ∧ k'.pc u = .idle := by
  unfold mstep
  rw [h]
  simp only
  unfold pushStep
  simp only
  split
  · exact ⟨_, rfl, upd_same _ _ _⟩
  · exact ⟨_, rfl, upd_same _ _ _⟩

theorem sched_snoc {C : Config} {k1 k2 : MS} {n : Nat} {o : Option Nat} : ∀ (L : List Nat) {k : MS}, sched C L k = .ok k1 →
    mstep C k1 n = .ok (k2, o) → sched C (L ++ [n]) k = .ok k2 := by
  intro L
  induction L with
  | nil =>
    intro k e1 e2
    obtain rfl := Outcome.ok.inj e1
    show (mstep C k n >>= _) = _
    rw [e2]; rfl
  | cons v L ih =>
    intro k e1 e2
    obtain ⟨⟨kv, ov⟩, ev, e1⟩ := Outcome.bind_eq_ok e1
    show (mstep C k v >>= _) = _
    rw [ev, Outcome.ok_bind]
    exact ih e1 e2

/-- One step of each thread that is between the two effects of a push to `t`. -/
theorem MInv.settle {Ω : Env} {cl : Prop} {E : EndSet} {C : Config} (hf : C.reallocFactor ≠ 0) {t : Nat} : ∀ (n : Nat) {k : MS}, MInv Ω cl E k →
    (∀ i c r, k.pc t ≠ .push i c r) →
    ∃ L k', sched C L k = .ok k' ∧ MInv Ω cl E k' ∧ k'.pc t = k.pc t ∧ L.Nodup ∧
      (∀ u ∈ L, u < n ∧ ∃ e p r, k.pc u = .push t (.link e p) r) ∧
      (∀ u, u < n → ∀ e p r, k'.pc u ≠ .push t (.link e p) r) ∧ ∀ u, n ≤ u → k'.pc u = k.pc u := by
  intro n
  induction n with
  | zero => intro k I _; exact ⟨[], k, rfl, I, rfl, List.nodup_nil, by simp, by simp, fun _ _ => rfl⟩
  | succ n ih =>
    intro k I ht
    obtain ⟨L, k1, e1, I1, p1, d1, l1, n1, o1⟩ := ih I ht
    by_cases h : ∃ e p r, k1.pc n = .push t (.link e p) r
    · obtain ⟨e, p, r, h⟩ := h
      obtain ⟨k2, e2, p2⟩ := link_step (C := C) h
      have hnt : t ≠ n := by
        rintro rfl
        rw [p1] at h
        exact ht _ _ _ h
      have S := mstep_shape e2
      have I2 : MInv Ω cl E k2 := by
        rcases mstep_ok hf I1 n with ⟨_, e'⟩ | ⟨k', o, e', I', _⟩
        · rw [e'] at e2; cases e2
        · rw [e'] at e2
          obtain ⟨rfl, rfl⟩ := Prod.mk.inj (Outcome.ok.inj e2)
          exact I'
      refine ⟨L ++ [n], k2, ?_, I2, (S.pc t hnt).trans p1, ?_, ?_, ?_, ?_⟩
      · exact sched_snoc L e1 e2
      · rw [List.nodup_append]
        refine ⟨d1, by simp, fun a ha b hb => ?_⟩
        rw [List.mem_singleton] at hb
        have := (l1 a ha).1
        omega
      · intro u hu
        rcases List.mem_append.1 hu with hu | hu
        · exact ⟨by have := (l1 u hu).1; omega, (l1 u hu).2⟩
        · rw [List.mem_singleton] at hu
          subst hu
          exact ⟨by omega, e, p, r, by rw [← o1 u (Nat.le_refl _)]; exact h⟩
      · intro u hu e' p' r'
        by_cases hun : u = n
        · rw [hun, p2]; simp
        · rw [S.pc u hun]; exact n1 u (by omega) e' p' r'
      · intro u hu
        rw [S.pc u (by omega)]
        exact o1 u (by omega)
    · refine ⟨L, k1, e1, I1, p1, d1, fun u hu => ⟨by have := (l1 u hu).1; omega, (l1 u hu).2⟩, ?_, fun u hu => o1 u (by omega)⟩
      intro u hu e p r he
      by_cases hun : u = n
      · exact h ⟨e, p, r, by rw [← hun]; exact he⟩
      · exact n1 u (by omega) e p r he

/-- Same, for all the threads. -/
theorem MInv.settled {Ω : Env} {cl : Prop} {E : EndSet} {C : Config} (hf : C.reallocFactor ≠ 0) {t : Nat} {k : MS} (I : MInv Ω cl E k)
    (hp : k.pc t ≠ .idle) :
    ∃ L k', sched C L k = .ok k' ∧ L.Nodup ∧ (∀ u ∈ L, ∃ e p r, k.pc u = .push t (.link e p) r) ∧ Ends C k' t := by
  by_cases ht : ∃ i c r, k.pc t = .push i c r
  · obtain ⟨i, c, r, h⟩ := ht
    exact ⟨[], k, rfl, List.nodup_nil, by simp, I.ends_push hf h⟩
  · obtain ⟨L, k', e, I', p', d, l, n, o⟩ := I.settle hf (t := t) k.chs.length (fun i c r h => ht ⟨i, c, r, h⟩)
    refine ⟨L, k', e, d, fun u hu => (l u hu).2, I'.ends hf ?_ (by rw [p']; exact hp)⟩
    intro u e p r hu
    by_cases h : u < k.chs.length
    · exact n u h e p r hu
    · rw [o u (by omega), I.out u (by omega)] at hu; cases hu

end MpcAlloc
