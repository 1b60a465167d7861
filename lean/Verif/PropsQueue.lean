import Verif.Queue

/-
Properties C25, C26 and C27: the remote free queue.
-/

namespace MpcAlloc
namespace Queue

/-! ## Steps of the consumer -/

theorem inv_cstep {s : S} {D Q : List Nat} {own : Nat → Option (Nat × Nat)} (I : Inv s D Q own) :
    ∃ s' D' Q', cstep s = .ok s' ∧ Inv s' D' Q' own := by
  -- steps that only change the position of the consumer in the extracted list
  have move : ∀ c : CPC, (∀ h, c ≠ .clearHead h) → (∀ h, c ≠ .swapTail h) →
      (∀ h, s.cons ≠ .clearHead h) → (∀ h, s.cons ≠ .swapTail h) → ConsOK { s with cons := c } D →
      Inv { s with cons := c } D Q own := by
    intro c c1 c2 c3 c4 hc
    refine ⟨I.pushed, I.nodup, I.nz, I.ownIff, I.ownIn, I.pre, I.preU, I.swapz, I.linkD, I.firstD, I.linkQ, I.tail, ?_,
      hc⟩
    have hH := I.head
    unfold HeadOK at hH ⊢
    split at hH
    · exact absurd ‹_› (c3 _)
    · exact absurd ‹_› (c4 _)
    · cases c with
      | clearHead h => exact absurd rfl (c1 h)
      | swapTail h => exact absurd rfl (c2 h)
      | _ => exact hH
  unfold cstep
  have hC := I.cons
  have hH := I.head
  unfold ConsOK at hC
  unfold HeadOK at hH
  cases hc : s.cons with
  | idle =>
    rw [hc] at hC
    simp only at hC ⊢
    refine ⟨_, D, Q, rfl, ?_⟩
    split
    · exact I
    · exact move _ (by simp) (by simp) (by simp [hc]) (by simp [hc]) hC
  | load =>
    rw [hc] at hC hH
    simp only at hC hH ⊢
    refine ⟨_, D, Q, rfl, ?_⟩
    split
    · exact move _ (by simp) (by simp) (by simp [hc]) (by simp [hc]) (by
        show (0 : Nat) = D.head?.getD 0 ∧ Done s.next D
        rw [hC]; exact ⟨rfl, trivial⟩)
    · rename_i h0
      refine ⟨I.pushed, I.nodup, I.nz, I.ownIff, I.ownIn, I.pre, I.preU, I.swapz, I.linkD, I.firstD, I.linkQ, I.tail,
        ?_, hC⟩
      show s.head = s.head ∧ Q.head? = some s.head ∧ own s.head = none
      cases hq : Q.head? with
      | none =>
        rw [List.head?_eq_none_iff] at hq
        exact absurd (hH.2 hq) h0
      | some q =>
        rcases hH.1 q hq with h1 | h1
        · rw [← h1.1] at h1; exact ⟨rfl, by rw [(hH.1 q hq).elim (fun h => h.1) (fun h => absurd h.1 h0)], h1.2⟩
        · exact absurd h1.1 h0
  | clearHead h =>
    rw [hc] at hC hH
    simp only at hC hH ⊢
    exact ⟨_, D, Q, rfl, I.pushed, I.nodup, I.nz, I.ownIff, I.ownIn, I.pre, I.preU, I.swapz, I.linkD, I.firstD, I.linkQ,
      I.tail, ⟨rfl, hH.2⟩, hC⟩
  | swapTail h =>
    rw [hc] at hC hH
    simp only at hC hH ⊢
    subst hC
    -- the queue becomes the extracted list
    refine ⟨_, Q, [], rfl, ?_, ?_, ?_, I.ownIff, ?_, ?_, I.preU, I.swapz, I.linkQ, ?_, trivial, rfl, ?_, ?_⟩
    · rw [List.append_nil]; exact I.pushed
    · rw [List.append_nil]; exact I.nodup
    · rw [List.append_nil]; exact I.nz
    · rw [List.append_nil]; exact I.ownIn
    · rw [List.append_nil]; exact I.pre
    · intro d hd
      rw [hH.2.1] at hd
      rw [← Option.some.inj hd]; exact hH.2.2
    · exact ⟨fun q hq => (by cases hq), fun _ => hH.1⟩
    · show Q.head? = some h ∧ Q.getLast? = some s.tail ∧ ∃ A B, Q = A ++ h :: B ∧ List.IsChain _ (A ++ [h])
      refine ⟨hH.2.1, ?_, ?_⟩
      · rw [I.tail]
        have hne : Q ≠ [] := by rintro rfl; cases hH.2.1
        rw [List.getLast?_eq_some_getLast hne]; rfl
      · cases Q with
        | nil => cases hH.2.1
        | cons q l =>
          have := Option.some.inj hH.2.1
          subst this
          exact ⟨[], l, rfl, by simp⟩
  | walk h tl cur =>
    rw [hc] at hC hH
    simp only at hC hH ⊢
    obtain ⟨h1, h2, A, B, e, h3⟩ := hC
    have hnD := (List.nodup_append.1 I.nodup).1
    by_cases ht : cur = tl
    · rw [if_pos ht]
      refine ⟨_, D, Q, rfl, move _ (by simp) (by simp) (by simp [hc]) (by simp [hc]) ?_⟩
      show h = D.head?.getD 0 ∧ Done s.next D
      refine ⟨by rw [h1]; rfl, ?_⟩
      have hB : B = [] := by
        cases B with
        | nil => rfl
        | cons b l =>
          exfalso
          rw [e] at h2 hnD
          rw [List.getLast?_append_cons, List.getLast?_cons_cons] at h2
          have hm : tl ∈ b :: l := List.mem_of_getLast? h2
          rw [← ht] at hm
          exact (List.nodup_cons.1 (List.nodup_append.1 hnD).2.1).1 hm
      subst hB
      rw [e]
      refine done_of_chain h3 ?_
      rw [ht]
      exact I.linkD.last h2
    · have hcD : cur ∈ D := by rw [e]; simp
      have h0 : cur ≠ 0 := by rintro rfl; exact I.nz (List.mem_append_left _ hcD)
      rw [if_neg ht, if_neg h0]
      refine ⟨_, D, Q, rfl, ?_⟩
      split
      · exact I
      · exact move _ (by simp) (by simp) (by simp [hc]) (by simp [hc]) ⟨h1, h2, ‹_›, ht, A, B, e, h3⟩
  | adv h tl cur =>
    rw [hc] at hC hH
    simp only at hC hH ⊢
    obtain ⟨h1, h2, h4, h5, A, B, e, h3⟩ := hC
    have hcD : cur ∈ D := by rw [e]; simp
    have h0 : cur ≠ 0 := by rintro rfl; exact I.nz (List.mem_append_left _ hcD)
    rw [if_neg h0]
    refine ⟨_, D, Q, rfl, move _ (by simp) (by simp) (by simp [hc]) (by simp [hc]) ?_⟩
    cases B with
    | nil =>
      exfalso
      rw [e] at h2
      simp at h2
      exact h5 h2
    | cons b l =>
      have hb : s.next cur = b := by
        have := I.linkD
        rw [e] at this
        exact this.next_of h4
      refine ⟨h1, h2, A ++ [cur], l, ?_, ?_⟩
      · show D = (A ++ [cur]) ++ s.next cur :: l
        rw [hb, e]; simp
      · show List.IsChain (fun a b => s.next a = b) ((A ++ [cur]) ++ [s.next cur])
        rw [List.isChain_append]
        refine ⟨h3, by simp, ?_⟩
        intro x hx y hy
        simp at hx hy
        subst hx; subst hy; rfl
  | dread cur =>
    rw [hc] at hC hH
    simp only at hC hH ⊢
    refine ⟨_, D, Q, rfl, ?_⟩
    cases D with
    | nil =>
      have h0 : cur = 0 := by simpa using hC.1
      rw [if_pos h0]
      exact move _ (by simp) (by simp) (by simp [hc]) (by simp [hc]) rfl
    | cons d l =>
      have hcd : cur = d := by simpa using hC.1
      subst hcd
      have h0 : cur ≠ 0 := by rintro rfl; exact I.nz (by simp)
      rw [if_neg h0]
      refine move _ (by simp) (by simp) (by simp [hc]) (by simp [hc]) ⟨l, rfl, ?_, hC.2⟩
      cases l with
      | nil => exact hC.2
      | cons y l => exact hC.2.1
  | dfree cur nxt =>
    rw [hc] at hC hH
    simp only at hC hH ⊢
    obtain ⟨D', e, h1, h2⟩ := hC
    subst e
    have hsub : ∀ x, x ∈ D' ++ Q → x ∈ (cur :: D') ++ Q := fun x hx => List.mem_cons_of_mem _ hx
    have hnot : cur ∉ D' ++ Q := (List.nodup_cons.1 I.nodup).1
    have ho := I.firstD cur rfl
    refine ⟨_, D', Q, rfl, ?_, (List.nodup_cons.1 I.nodup).2, fun h => I.nz (hsub 0 h), I.ownIff, ?_, ?_, I.preU, I.swapz,
      ?_, ?_, I.linkQ, I.tail, ?_, ?_⟩
    · simp only [I.pushed, List.append_assoc, List.cons_append, List.nil_append]
    · intro f u p hf
      have := I.ownIn f u p hf
      rcases List.mem_cons.1 this with rfl | h
      · rw [ho] at hf; cases hf
      · exact h
    · intro u f hf
      have := I.pre u f hf
      exact ⟨this.1, fun h => this.2 (hsub f h)⟩
    · have := I.linkD
      cases D' with
      | nil => trivial
      | cons y l => exact this.2
    · intro d hd
      cases D' with
      | nil => cases hd
      | cons y l =>
        have := Option.some.inj hd
        subst this
        rcases I.linkD.1 with h | ⟨h, _⟩
        · exact h.2
        · rw [h2.1] at h
          exact absurd h (by rintro rfl; exact I.nz (by simp))
    · exact hH
    · show nxt = D'.head?.getD 0 ∧ Done s.next D'
      refine ⟨h1, ?_⟩
      cases D' with
      | nil => trivial
      | cons y l => exact h2.2

theorem Reach.inv {s : S} (h : Reach s) : ∃ D Q own, Inv s D Q own := by
  induction h with
  | init next => exact ⟨_, _, _, init_inv next⟩
  | start _ h1 h2 h3 ih =>
    obtain ⟨D, Q, own, I⟩ := ih
    exact ⟨D, Q, own, inv_start I h1 h2 h3⟩
  | prod t _ ih =>
    obtain ⟨D, Q, own, I⟩ := ih
    obtain ⟨Q', own', I'⟩ := inv_pstep I t
    exact ⟨D, Q', own', I'⟩
  | cons _ e ih =>
    obtain ⟨D, Q, own, I⟩ := ih
    obtain ⟨s', D', Q', e', I'⟩ := inv_cstep I
    rw [e] at e'
    cases Outcome.ok.inj e'
    exact ⟨D', Q', own, I'⟩
  | write _ h ih =>
    obtain ⟨D, Q, own, I⟩ := ih
    exact ⟨D, Q, own, inv_write I h⟩

/-! ## C25 -/

/-- C25: in any reachable state the delivered entries are, one for one and in order, the first pushed ones; the
entries that wait are pairwise distinct. -/
theorem C25_exactly_once {s : S} (h : Reach s) :
    ∃ rest, s.pushed.map Prod.snd = s.out ++ rest ∧ rest.Nodup := by
  obtain ⟨D, Q, own, I⟩ := h.inv
  exact ⟨D ++ Q, I.pushed, I.nodup⟩

/-- C25, nothing is lost: when no push is between its two effects, the consumer is not draining and finds the queue
empty only if everything pushed was delivered. -/
theorem C25_nothing_lost {s : S} (h : Reach s) (hq : ∀ t e p, s.prod t ≠ .link e p) (hc : s.cons = .idle)
    (he : s.head = 0) : s.out = s.pushed.map Prod.snd := by
  obtain ⟨D, Q, own, I⟩ := h.inv
  have hD : D = [] := by have := I.cons; unfold ConsOK at this; rw [hc] at this; exact this
  have hQ : Q = [] := by
    have hH := I.head
    unfold HeadOK at hH
    rw [hc] at hH
    cases Q with
    | nil => rfl
    | cons q l =>
      rcases hH.1 q rfl with h1 | ⟨_, t, h1⟩
      · exfalso
        rw [he] at h1
        exact I.nz (by rw [h1.1]; simp)
      · exact absurd ((I.ownIff q t 0).1 h1) (hq t q 0)
  rw [I.pushed, hD, hQ]; simp

/-! ## C26 -/

/-- The entry that the thread has not swapped in yet. -/
def pend : PPC → List Nat
  | .clear e => [e]
  | .swap e => [e]
  | _ => []

/-- The entries of the thread `t` in a record. -/
def ofThread (t : Nat) (l : List (Nat × Nat)) : List Nat := (l.filter (fun x => x.1 = t)).map Prod.snd

theorem ofThread_append (t : Nat) (l1 l2 : List (Nat × Nat)) :
    ofThread t (l1 ++ l2) = ofThread t l1 ++ ofThread t l2 := by
  simp [ofThread]

theorem Reach.calls {s : S} (h : Reach s) (t : Nat) : ofThread t s.calls = ofThread t s.pushed ++ pend (s.prod t) := by
  induction h with
  | init next => rfl
  | @start s u e _ h1 _ _ ih =>
    simp only [ofThread_append]
    by_cases hu : t = u
    · subst hu
      rw [ih, h1, upd_same]
      simp [pend, ofThread]
    · rw [ih, upd_ne hu]
      have : ofThread t [(u, e)] = [] := by
        unfold ofThread; rw [List.filter_cons_of_neg (by simpa using fun h => hu h.symm)]; rfl
      rw [this, List.append_nil]
  | @prod s u _ ih =>
    unfold pstep
    cases hp : s.prod u with
    | idle => exact ih
    | clear e =>
      simp only
      rw [ih]
      by_cases hu : t = u
      · subst hu; rw [upd_same, hp]; rfl
      · rw [upd_ne hu]
    | swap e =>
      simp only [ofThread_append]
      rw [ih]
      by_cases hu : t = u
      · subst hu; rw [upd_same, hp]; simp [pend, ofThread]
      · rw [upd_ne hu]
        have : ofThread t [(u, e)] = [] := by
          unfold ofThread; rw [List.filter_cons_of_neg (by simpa using fun h => hu h.symm)]; rfl
        rw [this, List.append_nil]
    | link e p =>
      simp only
      split
      all_goals
        simp only
        rw [ih]
        by_cases hu : t = u
        · subst hu; rw [upd_same, hp]; rfl
        · rw [upd_ne hu]
  | @cons s s' _ e ih =>
    have hk : s'.calls = s.calls ∧ s'.pushed = s.pushed ∧ s'.prod = s.prod := by
      unfold cstep at e
      split at e
      all_goals try split at e
      all_goals try split at e
      all_goals try split at e
      all_goals first
        | (cases Outcome.ok.inj e; exact ⟨rfl, rfl, rfl⟩)
        | (cases e)
    rw [hk.1, hk.2.1, hk.2.2]; exact ih
  | write _ _ ih => exact ih

/-- C26: the delivered entries are the first ones in the order of the pushes, and those of one thread are delivered in
the order in which this thread pushed them. -/
theorem C26_fifo {s : S} (h : Reach s) :
    ∃ del, del <+: s.pushed ∧ s.out = del.map Prod.snd ∧ ∀ t, ofThread t del <+: ofThread t s.calls := by
  obtain ⟨rest, e, _⟩ := C25_exactly_once h
  refine ⟨s.pushed.take s.out.length, List.take_prefix _ _, ?_, fun t => ?_⟩
  · rw [List.map_take, e, List.take_left]
  · rw [h.calls t]
    have : s.pushed = s.pushed.take s.out.length ++ s.pushed.drop s.out.length := (List.take_append_drop _ _).symm
    rw [this, ofThread_append, List.append_assoc, ← this]
    exact List.prefix_append _ _

/-! ## C27 -/

/-- `k` steps of the consumer in a row. -/
def csteps : Nat → S → Outcome S
  | 0, s => .ok s
  | k + 1, s => do
    let s ← cstep s
    csteps k s

theorem csteps_add (k l : Nat) : ∀ {s s' : S}, csteps k s = .ok s' → csteps (k + l) s = csteps l s' := by
  induction k with
  | zero => intro s s' h; cases h; rw [Nat.zero_add]
  | succ k ih =>
    intro s s' h
    rw [Nat.add_right_comm]
    simp only [csteps] at h ⊢
    obtain ⟨s1, e1, e2⟩ := Outcome.bind_eq_ok h
    rw [e1, Outcome.ok_bind]
    exact ih e2

/-- The loop of `sctk_alloc_chain_purge_rfq` on a complete chain. -/
theorem csteps_deliver (D : List Nat) : ∀ {s : S}, s.cons = .dread (D.head?.getD 0) → Done s.next D → 0 ∉ D →
    csteps (2 * D.length + 1) s = .ok { s with cons := .idle, out := s.out ++ D } := by
  induction D with
  | nil =>
    intro s hc _ _
    have e : cstep s = .ok { s with cons := .idle } := by
      unfold cstep; rw [hc]; simp
    simp only [List.length_nil, csteps, e, Outcome.ok_bind, List.append_nil]
  | cons d l ih =>
    intro s hc hd hz
    have hd0 : d ≠ 0 := by rintro rfl; exact hz (by simp)
    have hnx : s.next d = l.head?.getD 0 := by
      cases l with
      | nil => exact hd
      | cons y l => exact hd.1
    have hl : Done s.next l := by
      cases l with
      | nil => trivial
      | cons y l => exact hd.2
    have e1 : cstep s = .ok { s with cons := .dfree d (s.next d) } := by
      unfold cstep; rw [hc]; simp [hd0]
    have e2 : cstep { s with cons := .dfree d (s.next d) } =
        .ok { s with cons := .dread (s.next d), out := s.out ++ [d] } := rfl
    have := ih (s := { s with cons := .dread (s.next d), out := s.out ++ [d] }) (by rw [hnx]) hl
      (fun h => hz (List.mem_cons_of_mem _ h))
    rw [show 2 * (d :: l).length + 1 = (2 * l.length + 1) + 1 + 1 by simp; omega]
    rw [csteps, e1, Outcome.ok_bind, csteps, e2, Outcome.ok_bind, this]
    simp

/-- `sctk_mpscf_queue_wait_until_end_is` on a complete chain. -/
theorem csteps_walk (B : List Nat) : ∀ {s : S} {h tl cur : Nat}, s.cons = .walk h tl cur → Done s.next (cur :: B) →
    (cur :: B).getLast? = some tl → (cur :: B).Nodup → 0 ∉ cur :: B →
    csteps (2 * B.length + 1) s = .ok { s with cons := .dread h } := by
  induction B with
  | nil =>
    intro s h tl cur hc _ hl _ _
    have : cur = tl := by simpa using hl
    have e : cstep s = .ok { s with cons := .dread h } := by
      unfold cstep; rw [hc]; simp [this]
    simp only [List.length_nil, csteps, e, Outcome.ok_bind]
  | cons b l ih =>
    intro s h tl cur hc hd hl hn hz
    have hb0 : b ≠ 0 := by rintro rfl; exact hz (by simp)
    have hc0 : cur ≠ 0 := by rintro rfl; exact hz (by simp)
    rw [List.getLast?_cons_cons] at hl
    have hct : cur ≠ tl := by
      rintro rfl
      exact (List.nodup_cons.1 hn).1 (List.mem_of_getLast? hl)
    have e1 : cstep s = .ok { s with cons := .adv h tl cur } := by
      unfold cstep; rw [hc]; simp [hct, hc0, hd.1, hb0]
    have e2 : cstep { s with cons := .adv h tl cur } = .ok { s with cons := .walk h tl b } := by
      unfold cstep; simp [hc0, hd.1]
    have := ih (s := { s with cons := .walk h tl b }) rfl hd.2 hl (List.nodup_cons.1 hn).2
      (fun h => hz (List.mem_cons_of_mem _ h))
    rw [show 2 * (b :: l).length + 1 = (2 * l.length + 1) + 1 + 1 by simp; omega]
    rw [csteps, e1, Outcome.ok_bind, csteps, e2, Outcome.ok_bind, this]

/-- Walk then deliver. -/
theorem csteps_walk_deliver {s : S} {D A B : List Nat} {h tl cur : Nat} (hc : s.cons = .walk h tl cur)
    (hd : Done s.next D) (hh : D.head? = some h) (hl : D.getLast? = some tl) (hn : D.Nodup) (hz : 0 ∉ D)
    (e : D = A ++ cur :: B) :
    ∃ k, k ≤ 4 * D.length + 2 ∧ csteps k s = .ok { s with cons := .idle, out := s.out ++ D } := by
  have hd' : Done s.next (cur :: B) := by
    rw [e] at hd
    clear e hl
    induction A with
    | nil => exact hd
    | cons a A ih =>
      apply ih
      cases A with
      | nil => exact hd.2
      | cons b A => exact hd.2
  have w := csteps_walk B hc hd' (by rw [← hl, e, List.getLast?_append_cons])
    (by rw [e] at hn; exact (List.nodup_append.1 hn).2.1) (fun h => hz (by rw [e]; exact List.mem_append_right _ h))
  have d := csteps_deliver D (s := { s with cons := .dread h }) (by rw [hh]; rfl) hd hz
  have hlen : B.length + 1 ≤ D.length := by rw [e]; simp
  exact ⟨(2 * B.length + 1) + (2 * D.length + 1), by omega, by rw [csteps_add _ _ w, d]⟩

/-- C27: the consumer never reads through `NULL`, whatever the other threads do; and once no push is between its two
effects, the consumer running on its own ends the drain it is in within `4 n + 6` steps, `n` being the number of
entries pushed and not delivered; a drain it starts then delivers all of them. -/
theorem C27_drain_ends {s : S} (h : Reach s) :
    (∃ s', cstep s = .ok s') ∧
    ((∀ t e p, s.prod t ≠ .link e p) →
      ∃ k s', k ≤ 4 * (s.pushed.length - s.out.length) + 6 ∧ csteps k s = .ok s' ∧ s'.cons = .idle ∧
        (s.cons = .idle → s'.out = s.pushed.map Prod.snd)) := by
  obtain ⟨D, Q, own, I⟩ := h.inv
  obtain ⟨s1, _, _, e1, _⟩ := inv_cstep I
  refine ⟨⟨s1, e1⟩, fun hq => ?_⟩
  have hnone : ∀ x, own x = none := by
    intro x
    cases ho : own x with
    | none => rfl
    | some v => obtain ⟨t, p⟩ := v; exact absurd ((I.ownIff x t p).1 ho) (hq t x p)
  have hlen : s.pushed.length - s.out.length = D.length + Q.length := by
    have := congrArg List.length I.pushed
    simp at this
    omega
  rw [hlen]
  have hdD := I.linkD.done (fun x _ => hnone x)
  have hdQ := I.linkQ.done (fun x _ => hnone x)
  have hnD := (List.nodup_append.1 I.nodup).1
  have hnQ := (List.nodup_append.1 I.nodup).2.1
  have hzD : 0 ∉ D := fun h => I.nz (List.mem_append_left _ h)
  have hzQ : 0 ∉ Q := fun h => I.nz (List.mem_append_right _ h)
  have hC := I.cons
  have hH := I.head
  unfold ConsOK at hC
  unfold HeadOK at hH
  -- from the swap of the tail on
  have fromSwap : ∀ (s2 : S) (q : Nat), s2.cons = .swapTail q → s2.tail = Q.getLast?.getD 0 → s2.next = s.next →
      Q.head? = some q → ∃ k s', k ≤ 4 * Q.length + 3 ∧ csteps k s2 = .ok s' ∧ s'.cons = .idle ∧
        s'.out = s2.out ++ Q := by
    intro s2 q hc2 ht2 hn2 hq2
    have e2 : cstep s2 = .ok { s2 with tail := 0, cons := .walk q s2.tail q } := by
      unfold cstep; rw [hc2]
    cases Q with
    | nil => cases hq2
    | cons q' l =>
      have := Option.some.inj hq2
      subst this
      obtain ⟨k, hk, e3⟩ := csteps_walk_deliver (s := { s2 with tail := 0, cons := .walk q' s2.tail q' })
        (D := q' :: l) (A := []) (B := l) rfl (by rw [hn2]; exact hdQ) rfl (by
          rw [ht2, List.getLast?_eq_some_getLast (by simp)]; rfl) hnQ hzQ rfl
      refine ⟨k + 1, { s2 with tail := 0, cons := .idle, out := s2.out ++ (q' :: l) }, by omega, ?_, ?_, ?_⟩
      · rw [csteps, e2, Outcome.ok_bind, e3]
      · rfl
      · rfl
  have fromClear : ∀ (s2 : S) (q : Nat), s2.cons = .clearHead q → s2.tail = Q.getLast?.getD 0 → s2.next = s.next →
      Q.head? = some q → ∃ k s', k ≤ 4 * Q.length + 4 ∧ csteps k s2 = .ok s' ∧ s'.cons = .idle ∧
        s'.out = s2.out ++ Q := by
    intro s2 q hc2 ht2 hn2 hq2
    have e2 : cstep s2 = .ok { s2 with head := 0, cons := .swapTail q } := by
      unfold cstep; rw [hc2]
    obtain ⟨k, s', hk, e3, e4, e5⟩ := fromSwap { s2 with head := 0, cons := .swapTail q } q rfl ht2 hn2 hq2
    exact ⟨k + 1, s', by omega, by rw [csteps, e2, Outcome.ok_bind, e3], e4, e5⟩
  have headQ : (∀ q, Q.head? = some q → (s.head = q ∧ own q = none) ∨ (s.head = 0 ∧ ∃ t, own q = some (t, 0))) →
      s.head ≠ 0 → Q.head? = some s.head ∨ Q = [] := by
    intro h1 h0
    cases Q with
    | nil => exact Or.inr rfl
    | cons q l =>
      rcases h1 q rfl with h2 | h2
      · exact Or.inl (by rw [h2.1]; rfl)
      · exact absurd h2.1 h0
  cases hc : s.cons with
  | idle =>
    rw [hc] at hC hH
    simp only at hC hH
    have hp := I.pushed
    rw [hC, List.nil_append] at hp
    by_cases h0 : s.head = 0
    · exact ⟨0, s, by omega, rfl, hc, fun _ => C25_nothing_lost h hq hc h0⟩
    · rcases headQ hH.1 h0 with h1 | h1
      · have e1 : cstep s = .ok { s with cons := .load } := by
          unfold cstep; rw [hc]; simp [h0]
        have e2 : cstep { s with cons := .load } = .ok { s with cons := .clearHead s.head } := by
          unfold cstep; simp [h0]
        obtain ⟨k, s', hk, e3, e4, e5⟩ := fromClear { s with cons := .clearHead s.head } s.head rfl I.tail rfl h1
        refine ⟨k + 1 + 1, s', by omega, ?_, e4, fun _ => ?_⟩
        · rw [csteps, e1, Outcome.ok_bind, csteps, e2, Outcome.ok_bind, e3]
        · rw [e5, hp]
      · exact absurd (hH.2 h1) h0
  | load =>
    rw [hc] at hC hH
    simp only at hC hH
    by_cases h0 : s.head = 0
    · have e1 : cstep s = .ok { s with cons := .dread 0 } := by
        unfold cstep; rw [hc]; simp [h0]
      have e2 : cstep { s with cons := .dread 0 } = .ok { s with cons := .idle } := rfl
      exact ⟨2, _, by omega, by rw [csteps, e1, Outcome.ok_bind, csteps, e2, Outcome.ok_bind, csteps], rfl,
        fun h => by cases h⟩
    · rcases headQ hH.1 h0 with h1 | h1
      · have e2 : cstep s = .ok { s with cons := .clearHead s.head } := by
          unfold cstep; rw [hc]; simp [h0]
        obtain ⟨k, s', hk, e3, e4, e5⟩ := fromClear { s with cons := .clearHead s.head } s.head rfl I.tail rfl h1
        exact ⟨k + 1, s', by omega, by rw [csteps, e2, Outcome.ok_bind, e3], e4, fun h => by cases h⟩
      · exact absurd (hH.2 h1) h0
  | clearHead q =>
    rw [hc] at hH
    obtain ⟨k, s', hk, e3, e4, _⟩ := fromClear s q hc I.tail rfl hH.2.1
    exact ⟨k, s', by omega, e3, e4, fun h => by cases h⟩
  | swapTail q =>
    rw [hc] at hH
    obtain ⟨k, s', hk, e3, e4, _⟩ := fromSwap s q hc I.tail rfl hH.2.1
    exact ⟨k, s', by omega, e3, e4, fun h => by cases h⟩
  | walk h' tl cur =>
    rw [hc] at hC
    obtain ⟨h1, h2, A, B, e, _⟩ := hC
    obtain ⟨k, hk, e3⟩ := csteps_walk_deliver hc hdD h1 h2 hnD hzD e
    exact ⟨k, _, by omega, e3, rfl, fun h => by cases h⟩
  | adv h' tl cur =>
    rw [hc] at hC
    obtain ⟨h1, h2, h4, h5, A, B, e, _⟩ := hC
    have hc0 : cur ≠ 0 := by rintro rfl; exact hzD (by rw [e]; simp)
    have e1 : cstep s = .ok { s with cons := .walk h' tl (s.next cur) } := by
      unfold cstep; rw [hc]; simp [hc0]
    cases B with
    | nil => rw [e] at h2; simp at h2; exact absurd h2 h5
    | cons b l =>
      have hb : s.next cur = b := by
        have := I.linkD
        rw [e] at this
        exact this.next_of h4
      obtain ⟨k, hk, e3⟩ := csteps_walk_deliver (s := { s with cons := .walk h' tl (s.next cur) })
        (A := A ++ [cur]) (B := l) rfl hdD h1 h2 hnD hzD (by rw [e, hb]; simp)
      exact ⟨k + 1, _, by omega, by rw [csteps, e1, Outcome.ok_bind, e3], rfl, fun h => by cases h⟩
  | dread cur =>
    rw [hc] at hC
    have e3 := csteps_deliver D (s := s) (by rw [hc, hC.1]) hC.2 hzD
    exact ⟨_, _, by omega, e3, rfl, fun h => by cases h⟩
  | dfree cur nxt =>
    rw [hc] at hC
    obtain ⟨D', e, h1, h2⟩ := hC
    subst e
    have e1 : cstep s = .ok { s with cons := .dread nxt, out := s.out ++ [cur] } := by
      unfold cstep; rw [hc]
    have hd' : Done s.next D' := by
      cases D' with
      | nil => trivial
      | cons y l => exact h2.2
    have e3 := csteps_deliver D' (s := { s with cons := .dread nxt, out := s.out ++ [cur] }) (by rw [h1]) hd'
      (fun h => hzD (List.mem_cons_of_mem _ h))
    refine ⟨2 * D'.length + 1 + 1, _, by simp; omega, by rw [csteps, e1, Outcome.ok_bind, e3], rfl, fun h => by cases h⟩

/-! ## A run -/

/-- Thread 1 pushes 100 and thread 2 pushes 200; the consumer extracts both entries before
thread 2 has linked its own, and waits. -/
theorem sample : ∃ s, Reach s ∧ s.pushed = [(1, 100), (2, 200)] ∧ s.out = [] ∧ s.cons = .walk 100 200 100 ∧
    s.prod 2 = .link 200 100 ∧ s.prod 1 = .idle := by
  have h0 := Reach.init (fun _ => 7)
  have h1 := Reach.start (t := 1) (e := 100) h0 rfl (by omega) (by simp [InFlight, init])
  have h2 := Reach.start (t := 2) (e := 200) h1 rfl (by omega) (by
    simp only [InFlight, init, upd]
    rintro (⟨t, ht | ht⟩ | ht)
    · split at ht <;> simp at ht
    · split at ht <;> simp at ht
    · simp at ht)
  have h3 := (((((h2.prod 1).prod 2).prod 1).prod 2).prod 1)
  obtain ⟨s4, e4⟩ : ∃ s4, cstep (pstep (pstep (pstep (pstep (pstep _ 1) 2) 1) 2) 1) = .ok s4 := (C27_drain_ends h3).1
  have h4 := h3.cons e4
  obtain ⟨s5, e5⟩ := (C27_drain_ends h4).1
  have h5 := h4.cons e5
  obtain ⟨s6, e6⟩ := (C27_drain_ends h5).1
  have h6 := h5.cons e6
  obtain ⟨s7, e7⟩ := (C27_drain_ends h6).1
  have h7 := h6.cons e7
  cases e4; cases e5; cases e6; cases e7
  exact ⟨_, h7, rfl, rfl, rfl, rfl, rfl⟩

/-- After thread 2 has finished, the hypothesis of C27 and C25 is met and the two entries are delivered. -/
example : ∃ s, Reach s ∧ (∀ t e p, s.prod t ≠ .link e p) ∧ s.out = [] ∧ s.pushed = [(1, 100), (2, 200)] := by
  obtain ⟨s, h, h1, h2, h3, h4, h5⟩ := sample
  obtain ⟨D, Q, own, I⟩ := h.inv
  refine ⟨pstep s 2, h.prod 2, ?_, ?_, ?_⟩
  · intro t e p hp
    unfold pstep at hp
    rw [h4] at hp
    simp only at hp
    rw [if_neg (by omega)] at hp
    simp only [upd] at hp
    split at hp
    · cases hp
    · rename_i ht
      -- only the entries 100 and 200 can have a pending link
      have hin := I.ownIn e t p ((I.ownIff e t p).2 hp)
      have hpu := I.pushed
      rw [h1, h2] at hpu
      simp only [List.map_cons, List.map_nil, List.nil_append] at hpu
      rw [← hpu] at hin
      simp at hin
      rcases hin with rfl | rfl
      · have hD := I.cons
        unfold ConsOK at hD
        rw [h3] at hD
        have := I.firstD 100 hD.1
        rw [(I.ownIff 100 t p).2 hp] at this; cases this
      · have e1 := (I.ownIff 200 t p).2 hp
        have e2 := (I.ownIff 200 2 100).2 h4
        rw [e1] at e2
        exact ht (Prod.mk.inj (Option.some.inj e2)).1
  · unfold pstep; rw [h4]; simp only; rw [if_neg (by omega)]; exact h2
  · unfold pstep; rw [h4]; simp only; rw [if_neg (by omega)]; exact h1

end Queue
end MpcAlloc
