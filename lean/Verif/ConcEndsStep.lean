import Verif.ConcEndsMarks

/-
The steps of the threads of the process in which threads end, with tags on the chains.
-/

namespace MpcAlloc

open Queue (CPC PPC upd upd_same upd_ne InFlight)

/-- The consumer only begins to drain a queue that has a head. -/
theorem Queue.load_head {s : Queue.S} (h : Queue.Reach s) (hc : s.cons = .load) : s.head ≠ 0 := by
  induction h with
  | init next => cases hc
  | start _ _ _ _ ih => exact ih hc
  | @prod s t hr ih =>
    obtain ⟨D, Q, own, I⟩ := hr.inv
    unfold Queue.pstep at hc ⊢
    cases hp : s.prod t with
    | idle => rw [hp] at hc; exact ih hc
    | clear e => rw [hp] at hc; exact ih hc
    | swap e => rw [hp] at hc; exact ih hc
    | link e p =>
      rw [hp] at hc
      simp only at hc ⊢
      split
      · have := I.ownIn e t p ((I.ownIff e t p).2 hp)
        intro he
        exact I.nz (he ▸ this)
      · rename_i hz; rw [if_neg hz] at hc; exact ih hc
  | @cons s s' hr e ih =>
    unfold Queue.cstep at e
    cases hs : s.cons with
    | idle =>
      rw [hs] at e
      simp only at e
      split at e
      · obtain rfl := Outcome.ok.inj e
        rw [hs] at hc; cases hc
      · obtain rfl := Outcome.ok.inj e
        assumption
    | load => rw [hs] at e; simp only at e; obtain rfl := Outcome.ok.inj e; simp only at hc; split at hc <;> cases hc
    | clearHead h => rw [hs] at e; obtain rfl := Outcome.ok.inj e; cases hc
    | swapTail h => rw [hs] at e; obtain rfl := Outcome.ok.inj e; cases hc
    | walk h tl cur =>
      rw [hs] at e
      simp only at e
      split at e
      · obtain rfl := Outcome.ok.inj e; cases hc
      · split at e
        · cases e
        · split at e
          · obtain rfl := Outcome.ok.inj e; rw [hs] at hc; cases hc
          · obtain rfl := Outcome.ok.inj e; cases hc
    | adv h tl cur =>
      rw [hs] at e
      simp only at e
      split at e
      · cases e
      · obtain rfl := Outcome.ok.inj e; cases hc
    | dread cur =>
      rw [hs] at e
      simp only at e
      split at e
      · obtain rfl := Outcome.ok.inj e; cases hc
      · obtain rfl := Outcome.ok.inj e; cases hc
    | dfree cur nxt => rw [hs] at e; obtain rfl := Outcome.ok.inj e; cases hc
  | write _ _ ih => exact ih hc

/-- When the consumer reads or writes the head or the tail, after its first look, the queue holds an entry. -/
theorem Queue.busy {s : Queue.S} (h : Queue.Reach s)
    (hc : s.cons = .load ∨ (∃ x, s.cons = .clearHead x) ∨ ∃ x, s.cons = .swapTail x) : ∃ e, InFlight s e := by
  obtain ⟨D, Q, own, I⟩ := h.inv
  have hd := I.head
  have key : ∀ q, Q.head? = some q → ∃ e, InFlight s e := fun q hq =>
    ⟨q, (I.inFlight q).2 (Or.inr (List.mem_append_right _ (List.mem_of_mem_head? hq)))⟩
  unfold Queue.HeadOK at hd
  rcases hc with hc | ⟨x, hc⟩ | ⟨x, hc⟩
  · have hz := Queue.load_head h hc
    rw [hc] at hd
    cases hQ : Q with
    | nil => exact absurd (hd.2 hQ) hz
    | cons q Q' => exact key q (by rw [hQ]; rfl)
  · rw [hc] at hd; exact key _ hd.2.1
  · rw [hc] at hd; exact key _ hd.2.1

namespace ConcEnds

/-- The threads that have begun to end. -/
def endSet (μ : Tags) : EndSet := ⟨True, fun i => μ i ≠ .run, fun _ _ => trivial⟩

theorem RetOK.mono {E E' : EndSet} (h : ∀ o, E.has o → E'.has o) {k : MS} {t r : Nat} (R : RetOK E k t r) : RetOK E' k t r := by
  obtain ⟨c, h1, h2⟩ := R
  refine ⟨c, h1, ?_⟩
  split at h2
  · exact h2
  · exact h2
  · exact h2
  · rcases h2 with h3 | h3 | ⟨h3, h4, h5, l, l1, l2, l3, l4, l5⟩
    · exact Or.inl h3
    · exact Or.inr (Or.inl h3)
    · exact Or.inr (Or.inr ⟨h3, h4, h5, l, l1, l2, l3, l4.imp id (h _), l5⟩)

/-- More threads have begun to end. -/
theorem MInv.mono {Ω : Env} {cl : Prop} {E E' : EndSet} (h : ∀ o, E.has o → E'.has o) (hm : E'.may → E.may) {k : MS} (I : MInv Ω cl E k) :
    MInv Ω cl E' k := by
  refine ⟨I.inv, I.q, I.wide, I.ptr, fun t => ?_, I.out, I.hand⟩
  have hR : ∀ {p b n l}, ReallocOK cl E k t p b n l → ReallocOK cl E' k t p b n l := by
    rintro p b n l ⟨r1, r2, r3, r4, r5⟩
    exact ⟨r1, r2, r3, r4.imp (fun x => ⟨x.1, fun y => x.2 (hm y)⟩) id, r5⟩
  have H := I.th t
  unfold MPcOK at H ⊢
  split at H
  · trivial
  · exact H
  · exact ⟨RetOK.mono h H.1, H.2⟩
  · exact H
  · exact H
  · exact H
  · exact ⟨RetOK.mono h H.1, H.2⟩
  · exact ⟨H.1.imp id (h _), RetOK.mono h H.2.1, H.2.2⟩
  · exact RetOK.mono h H
  · obtain ⟨l, H⟩ := H; exact ⟨l, hR H⟩
  · obtain ⟨H0, l, H, H1⟩ := H; exact ⟨H0.imp id (h _), l, hR H, H1⟩

/-- Where a thread that has begun to end may be: idle, or at the end of its life in the purge of its queue. -/
def Ending (m : Tag) (c : MPc) : Prop :=
  c = .idle ∨ ((∃ d, m = .ended d) ∧ (c = .look 0 0 ∨ ∃ x, c = .purge (.free 0 0) x))

/-- Process with tags. -/
structure Inv (Ω : Env) (cl : Prop) (k : MS) (μ : Tags) : Prop where
  m : MInv Ω cl (endSet μ) k
  run : ∀ i, k.chs.length ≤ i → μ i = .run
  cnt : ∀ i c, μ i = .ended true → k.chs[i]? = some c → c.cnt = 0
  pc : ∀ t, μ t ≠ .run → Ending (μ t) (k.pc t)

section
variable {Ω : Env} {cl : Prop} {C : Config} {k k' : MS} {μ : Tags}

/-- A chain with a block was not released. -/
theorem Inv.alive (I : Inv Ω cl k μ) {l : PBlock} (hl : l ∈ k.G.all) : μ l.owner ≠ .ended true := by
  intro h
  obtain ⟨c, hc⟩ := I.m.inv.chain_some hl
  have h1 := I.cnt _ _ h hc
  have h2 := (I.m.inv.chain hc).2.2.2 l hl rfl
  omega

theorem dead_tags {i : Nat} (I : Inv Ω cl k μ) : dead (k.tags μ) i = true ↔ μ i = .ended true := by
  unfold dead
  rw [mtags_get]
  cases hc : k.chs[i]? with
  | none =>
    have := I.run i (List.getElem?_eq_none_iff.1 hc)
    simp [this]
  | some c =>
    have hd := (I.m.inv.chain hc).1.dead
    cases hm : μ i with
    | run => simp [Chain.tag]; exact hd
    | flag => simp [Chain.tag, Chain.flag]; exact hd
    | ended d => cases d <;> simp [Chain.tag, Chain.marked]

theorem safe_tags {i : Nat} {c : Chain} (I : Inv Ω cl k μ) (hc : k.chs[i]? = some c) : (c.tag (μ i)).threadSafe = true ↔ μ i ≠ .run := by
  have hd := (I.m.inv.chain hc).1.safe
  cases hm : μ i with
  | run => simp [Chain.tag]; exact hd
  | flag => simp [Chain.tag, Chain.flag]
  | ended d => simp [Chain.tag, Chain.marked]

/-- A thread that is in a call of the client runs. -/
theorem Inv.runs (I : Inv Ω cl k μ) {t : Nat} (h : ¬ Ending (μ t) (k.pc t)) : μ t = .run := by
  by_contra hn
  exact h (I.pc t hn)

/-- A step that touches no released chain. -/
theorem step_alive (I : Inv Ω cl k μ) {t : Nat} (h : ∀ i ∈ used (k.tags μ) t, μ i ≠ .ended true) :
    step C (k.tags μ) t = mstep C (k.tags μ) t := by
  unfold step
  rw [if_neg]
  rw [List.any_eq_true]
  rintro ⟨i, hi, hd⟩
  exact h i hi ((dead_tags I).1 hd)

theorem step_dead (I : Inv Ω cl k μ) {t i : Nat} (h : i ∈ used (k.tags μ) t) (hi : μ i = .ended true) :
    step C (k.tags μ) t = .ub := by
  unfold step
  rw [if_pos]
  rw [List.any_eq_true]
  exact ⟨i, h, (dead_tags I).2 hi⟩

/-- What else a step does to the chains and the threads. -/
structure Moves (k k' : MS) (μ μ' : Tags) (t : Nat) : Prop where
  len : k'.chs.length = k.chs.length
  pc : ∀ u, u ≠ t → k'.pc u = k.pc u
  tag : ∀ i, μ' i = μ i ∨ (μ i = .ended false ∧ μ' i = .ended true ∧
    ∃ l ∈ k.G.all, l.owner = i ∧ ∀ c, k.chs[i]? = some c → HugeAt ⟨k.w, c⟩ l.ptr)
  cnt : ∀ i c c', μ' i = .ended false → k.chs[i]? = some c → k'.chs[i]? = some c' → c.cnt ≠ 0 → c'.cnt ≠ 0
  push : ∀ u i, projP i (k.pc u) = .idle → projP i (k'.pc u) ≠ .idle → μ i = .run
  queued : ∀ l ∈ k'.G.queued, l ∉ k.G.queued → μ l.owner = .run

/-- A step with the same tags. -/
theorem Inv.keep (I : Inv Ω cl k μ) (m : MInv Ω cl (endSet μ) k') {t : Nat} (hlen : k'.chs.length = k.chs.length)
    (hchs : ∀ i, μ i = .ended true → k'.chs[i]? = k.chs[i]?)
    (hpc : ∀ u, u ≠ t → k'.pc u = k.pc u) (ht : μ t ≠ .run → Ending (μ t) (k'.pc t)) : Inv Ω cl k' μ := by
  refine ⟨m, fun i hi => I.run i (by omega), fun i c hi hc => I.cnt i c hi (by rw [← hchs i hi]; exact hc), fun u hu => ?_⟩
  by_cases h : u = t
  · subst h; exact ht hu
  · rw [hpc u h]; exact I.pc u hu

/-- The result of a step, apart from the two ways in which it fails. -/
def Good (Ω : Env) (cl : Prop) (C : Config) (k : MS) (μ : Tags) (t : Nat) : Prop :=
  ∃ k' μ' o, step C (k.tags μ) t = .ok (k'.tags μ', o) ∧ Inv Ω cl k' μ' ∧ MOut (By (endSet μ) t) k k' t o ∧ Moves k k' μ μ' t

/-- A step that leaves the chains alone. -/
theorem Inv.quiet (I : Inv Ω cl k μ) {t : Nat} {o : Option Nat} (e : step C (k.tags μ) t = .ok (k'.tags μ, o))
    (m : MInv Ω cl (endSet μ) k') (M : MOut (By (endSet μ) t) k k' t o) (hchs : k'.chs = k.chs)
    (hpc : ∀ u, u ≠ t → k'.pc u = k.pc u) (ht : μ t ≠ .run → Ending (μ t) (k'.pc t))
    (hp : ∀ i, projP i (k.pc t) = .idle → projP i (k'.pc t) ≠ .idle → μ i = .run)
    (hq : ∀ l ∈ k'.G.queued, l ∉ k.G.queued → μ l.owner = .run) : Good Ω cl C k μ t := by
  refine ⟨k', μ, o, e, I.keep m (t := t) (by rw [hchs]) (fun i _ => by rw [hchs]) hpc ht, M, ⟨by rw [hchs], hpc, fun i => Or.inl rfl, ?_, ?_, hq⟩⟩
  · intro i c c' _ h1 h2 h3
    rw [hchs, h1] at h2
    obtain rfl := Option.some.inj h2
    exact h3
  · intro u i h1 h2
    by_cases hu : u = t
    · subst hu; exact hp i h1 h2
    · rw [hpc u hu] at h2; exact absurd h1 h2

/-! ## The purge -/

theorem purge_tags {t : Nat} {j : Job} {c : CPC} (h : ∀ cur nxt, c ≠ .dfree cur nxt) :
    purgeStep C (k.tags μ) t j c = (do let k1 ← purgeStep C k t j c; return k1.tags μ) := by
  cases c with
  | idle =>
    unfold purgeStep
    simp only
    show Outcome.ok (if k.head t = 0 then _ else _) = _
    split <;> rfl
  | load => rfl
  | clearHead x => rfl
  | swapTail x => rfl
  | walk x tl cur =>
    unfold purgeStep
    simp only
    split
    · rfl
    · split
      · rfl
      · show Outcome.ok (if k.nxt cur = 0 then _ else _) = _
        split <;> rfl
  | adv x tl cur =>
    unfold purgeStep
    simp only
    split <;> rfl
  | dread cur =>
    unfold purgeStep
    simp only
    split <;> rfl
  | dfree cur nxt => exact absurd rfl (h cur nxt)

/-- A step of the purge that is not the free of an entry. -/
theorem purge_same {t : Nat} {j : Job} {c : CPC} (h : ∀ cur nxt, c ≠ .dfree cur nxt) (hpc : k.pc t = .purge j c)
    (e : purgeStep C k t j c = .ok k') :
    k'.chs = k.chs ∧ k'.G = k.G ∧ (∀ u, u ≠ t → k'.pc u = k.pc u) ∧ j.Pos (k'.pc t) := by
  have go : ∀ {k1 : MS} {d : MPc}, k1.chs = k.chs → k1.G = k.G → k1.pc = k.pc → j.Pos d →
      (k1.go t d).chs = k.chs ∧ (k1.go t d).G = k.G ∧ (∀ u, u ≠ t → (k1.go t d).pc u = k.pc u) ∧ j.Pos ((k1.go t d).pc t) := by
    intro k1 d h1 h2 h3 h4
    refine ⟨h1, h2, fun u hu => ?_, ?_⟩
    · show upd k1.pc t d u = _
      rw [upd_ne hu, h3]
    · show j.Pos (upd k1.pc t d t)
      rw [upd_same]; exact h4
  unfold purgeStep at e
  cases c with
  | idle =>
    have e := Outcome.ok.inj e
    split at e
    · rw [← e]; exact go rfl rfl rfl (Or.inl rfl)
    · rw [← e]; exact go rfl rfl rfl (Or.inr ⟨_, rfl⟩)
  | load => rw [← Outcome.ok.inj e]; exact go rfl rfl rfl (Or.inr ⟨_, rfl⟩)
  | clearHead x => rw [← Outcome.ok.inj e]; exact go (k1 := { k with head := upd k.head t 0 }) rfl rfl rfl (Or.inr ⟨_, rfl⟩)
  | swapTail x => rw [← Outcome.ok.inj e]; exact go (k1 := { k with tail := upd k.tail t 0 }) rfl rfl rfl (Or.inr ⟨_, rfl⟩)
  | walk x tl cur =>
    simp only at e
    split at e
    · rw [← Outcome.ok.inj e]; exact go rfl rfl rfl (Or.inr ⟨_, rfl⟩)
    · split at e
      · cases e
      · have e := Outcome.ok.inj e
        split at e
        · rw [← e]; exact ⟨rfl, rfl, fun _ _ => rfl, Or.inr ⟨_, hpc⟩⟩
        · rw [← e]; exact go rfl rfl rfl (Or.inr ⟨_, rfl⟩)
  | adv x tl cur =>
    simp only at e
    split at e
    · cases e
    · rw [← Outcome.ok.inj e]; exact go rfl rfl rfl (Or.inr ⟨_, rfl⟩)
  | dread cur =>
    have e := Outcome.ok.inj e
    split at e
    · rw [← e]; exact go rfl rfl rfl (Or.inl rfl)
    · rw [← e]; exact go rfl rfl rfl (Or.inr ⟨_, rfl⟩)
  | dfree cur nxt => exact absurd rfl (h cur nxt)

theorem Ending.job {m : Tag} {j : Job} {c : CPC} {d : MPc} (h : Ending m (.purge j c)) (hp : j.Pos d) : Ending m d := by
  rcases h with h | ⟨h1, h2⟩
  · cases h
  · rcases h2 with h2 | ⟨x, h2⟩
    · cases h2
    · obtain ⟨rfl, rfl⟩ := MPc.purge.inj h2
      rcases hp with rfl | ⟨y, rfl⟩
      · exact Or.inr ⟨h1, Or.inl rfl⟩
      · exact Or.inr ⟨h1, Or.inr ⟨y, rfl⟩⟩

/-- The thread was too late: another released its chain before its last purge. -/
def Late (k : MS) (μ : Tags) (t : Nat) : Prop := k.pc t = .purge (.free 0 0) .idle ∧ μ t = .ended true

theorem Inv.purge (I : Inv Ω cl k μ) {t : Nat} {j : Job} {c : CPC} (h : ∀ cur nxt, c ≠ .dfree cur nxt) (hpc : k.pc t = .purge j c) :
    (step C (k.tags μ) t = .ub ∧ Late k μ t) ∨ Good Ω cl C k μ t := by
  by_cases hl : c = .idle ∧ μ t = .ended true
  · left
    obtain ⟨rfl, hd⟩ := hl
    have hj := I.pc t (by rw [hd]; simp)
    rw [hpc] at hj
    rcases hj with hj | ⟨_, hj | ⟨x, hj⟩⟩
    · cases hj
    · cases hj
    · obtain ⟨rfl, _⟩ := MPc.purge.inj hj
      refine ⟨step_dead I (i := t) ?_ hd, hpc, hd⟩
      unfold used
      have : (k.tags μ).pc t = .purge (.free 0 0) .idle := hpc
      rw [this]
      exact List.mem_singleton.2 rfl
  · right
    obtain ⟨k', e, m, M⟩ := I.m.purgeStep (C := C) (W := By (endSet μ) t) hpc
    obtain ⟨h1, h2, h3, h4⟩ := purge_same h hpc e
    have hu : ∀ i ∈ used (k.tags μ) t, μ i ≠ .ended true := by
      intro i hi hd
      have hb : (c = .load ∨ (∃ x, c = .clearHead x) ∨ ∃ x, c = .swapTail x) → False := by
        intro hc
        obtain ⟨q, R, Q⟩ := I.m.q t
        have hcons : q.cons = c := by rw [Q.cons, hpc]; rfl
        rw [← hcons] at hc
        obtain ⟨e, he⟩ := Queue.busy R hc
        obtain ⟨l, l1, l2, _⟩ := (Q.fl e).1 he
        have hit : i = t := by
          unfold used at hi
          have hp : (k.tags μ).pc t = .purge j c := hpc
          rw [hp] at hi
          rw [hcons] at hc
          rcases hc with rfl | ⟨x, rfl⟩ | ⟨x, rfl⟩ <;> exact List.mem_singleton.1 hi
        exact I.alive (MSpec.queued_all l1) (by rw [l2, ← hit]; exact hd)
      unfold used at hi
      have hp : (k.tags μ).pc t = .purge j c := hpc
      rw [hp] at hi
      cases c with
      | idle => exact hl ⟨rfl, by rw [← List.mem_singleton.1 hi]; exact hd⟩
      | load => exact hb (Or.inl rfl)
      | clearHead x => exact hb (Or.inr (Or.inl ⟨x, rfl⟩))
      | swapTail x => exact hb (Or.inr (Or.inr ⟨x, rfl⟩))
      | walk x tl cur => cases hi
      | adv x tl cur => cases hi
      | dread cur => cases hi
      | dfree cur nxt => exact h cur nxt rfl
    refine I.quiet (k' := k') (o := none) ?_ m M h1 h3 (fun hr => ?_) ?_ ?_
    · rw [step_alive I hu]
      unfold mstep
      have hp : (k.tags μ).pc t = .purge j c := hpc
      rw [hp]
      simp only
      rw [purge_tags h, e]
      rfl
    · have := I.pc t hr
      rw [hpc] at this
      exact this.job h4
    · intro i _ hi
      exact absurd (h4.proj i) hi
    · intro l hl hl'
      rw [h2] at hl
      exact absurd hl hl'

/-! ## A free in a chain -/

/-- The block at `p` is the last block of the chain `i`, which has its handler, and it is not huge. -/
def LastSmall (k : MS) (μ : Tags) (i p : Nat) : Prop :=
  μ i = .ended false ∧ (∃ l ∈ k.G.all, l.owner = i ∧ l.ptr = p) ∧ (∀ l ∈ k.G.all, l.owner = i → l.ptr = p) ∧
    ∀ c, k.chs[i]? = some c → ¬ HugeAt ⟨k.w, c⟩ p

theorem drop_mem {G : MSpec} {p : Nat} {l : PBlock} : l ∈ (G.drop p).all ↔ l ∈ G.all ∧ l.ptr ≠ p := by
  rw [G.drop_all, List.mem_filter, decide_eq_true_eq]

/-- A free of thread `t` in the chain of the block, as a step of the process. -/
theorem Inv.free (I : Inv Ω cl k μ) {t i : Nat} {l : PBlock} {c : Chain} {u : CS Light} {x : MPc} (hl : l ∈ k.G.all) (ho : l.owner = i)
    (hc : k.chs[i]? = some c) (e : chainFree (lightSource C) C ⟨k.ps.w, c⟩ l.ptr = .ok u) (hk : k'.chs = k.chs.set i u.c)
    (hG : ∀ m ∈ k.G.all, m.ptr ≠ l.ptr → m ∈ k'.G.all) (hpc : k'.pc = upd k.pc t x)
    (m : MInv Ω cl (endSet μ) k') (hx : μ t ≠ .run → Ending (μ t) x) (hp : ∀ j, projP j x = .idle)
    (hq : ∀ l ∈ k'.G.queued, l ∈ k.G.queued) :
    (chainFree (lightSource C) C (CS.tag ⟨k.ps.w, c⟩ (μ i)) l.ptr = .ub ∧ LastSmall k μ i l.ptr) ∨
    ∃ n, chainFree (lightSource C) C (CS.tag ⟨k.ps.w, c⟩ (μ i)) l.ptr = .ok (u.tag n) ∧ Inv Ω cl k' (upd μ i n) ∧
      Moves k k' μ (upd μ i n) t := by
  have J := I.m.inv.chain (show k.ps.chs[i]? = some c from hc)
  have hpos := J.2.2.2 l hl ho
  have hlen : i < k.chs.length := (List.getElem?_eq_some_iff.1 hc).1
  have hget : k'.chs[i]? = some u.c := by rw [hk]; simp [hlen]
  have hne : ∀ j, j ≠ i → k'.chs[j]? = k.chs[j]? := fun j h => by rw [hk, List.getElem?_set_ne (Ne.symm h)]
  have J' := m.inv.chain (show k'.ps.chs[i]? = some u.c from hget)
  have halive : μ i ≠ .ended true := by rw [← ho]; exact I.alive hl
  have good : ∀ n, (n = μ i ∨ (μ i = .ended false ∧ n = .ended true ∧ HugeAt ⟨k.ps.w, c⟩ l.ptr)) → (n = .ended true → u.c.cnt = 0) →
      (n = .ended false → u.c.cnt ≠ 0) → Inv Ω cl k' (upd μ i n) ∧ Moves k k' μ (upd μ i n) t := by
    intro n h1 h2 h3
    have hrun : ∀ j, upd μ i n j ≠ .run ↔ μ j ≠ .run := by
      intro j
      by_cases hj : j = i
      · subst hj
        rw [upd_same]
        rcases h1 with rfl | ⟨h1, rfl, _⟩
        · exact Iff.rfl
        · rw [h1]; simp
      · rw [upd_ne hj]
    have hend : ∀ j y, Ending (μ j) y → Ending (upd μ i n j) y := by
      intro j y hy
      by_cases hj : j = i
      · subst hj
        rw [upd_same]
        rcases h1 with rfl | ⟨_, rfl, _⟩
        · exact hy
        · exact hy.imp id (fun z => ⟨⟨true, rfl⟩, z.2⟩)
      · rw [upd_ne hj]; exact hy
    refine ⟨⟨MInv.mono (fun o ho => (hrun o).2 ho) (fun _ => trivial) m, fun j hj => ?_, fun j d hj hd => ?_, fun v hv => ?_⟩,
      ⟨by rw [hk]; simp, fun v hv => by rw [hpc, upd_ne hv], fun j => ?_, fun j d d' hj hd hd' hz => ?_, fun v j h h' => ?_,
        fun l h h' => absurd (hq l h) h'⟩⟩
    · rw [hk, List.length_set] at hj
      rw [upd_ne (by omega)]
      exact I.run j hj
    · by_cases hji : j = i
      · subst hji
        rw [upd_same] at hj
        rw [hget] at hd
        rw [← Option.some.inj hd]
        exact h2 hj
      · rw [upd_ne hji] at hj
        rw [hne j hji] at hd
        exact I.cnt j d hj hd
    · have hv' := (hrun v).1 hv
      refine hend v _ ?_
      rw [hpc]
      by_cases hvt : v = t
      · subst hvt; rw [upd_same]; exact hx hv'
      · rw [upd_ne hvt]; exact I.pc v hv'
    · by_cases hji : j = i
      · subst hji
        rw [upd_same]
        exact h1.imp id (fun h => ⟨h.1, h.2.1, l, hl, ho, fun d hd => by rw [← Option.some.inj (hc.symm.trans hd)]; exact h.2.2⟩)
      · rw [upd_ne hji]; exact Or.inl rfl
    · by_cases hji : j = i
      · subst hji
        rw [upd_same] at hj
        rw [hget] at hd'
        rw [← Option.some.inj hd']
        exact h3 hj
      · rw [hne j hji, hd] at hd'
        rw [← Option.some.inj hd']
        exact hz
    · rw [hpc] at h'
      by_cases hvt : v = t
      · subst hvt; rw [upd_same] at h'; exact absurd (hp j) h'
      · rw [upd_ne hvt] at h'; exact absurd h h'
  rcases chainFree_tag (m := μ i) J.1 halive e hpos with ⟨h1, h2, h3, h4⟩ | ⟨h1, h2, h3, h4⟩ | ⟨h1, h2⟩
  · left
    refine ⟨h4, h1, ⟨l, hl, ho, rfl⟩, fun b hb hbo => ?_, fun d hd => ?_⟩
    · by_contra hbp
      have := J'.2.2.2 b (hG b hb hbp) hbo
      omega
    · rw [hc] at hd
      rw [← Option.some.inj hd]
      exact h3
  · right
    exact ⟨.ended true, h4, good _ (Or.inr ⟨h1, rfl, h3⟩) (fun _ => h2) (fun h => by cases h)⟩
  · right
    exact ⟨μ i, h2, good _ (Or.inl rfl) (fun h => absurd h halive) (fun h => h1 h)⟩

/-- The free of an entry of the queue of `t`. -/
theorem Inv.dfree (I : Inv Ω cl k μ) {t cur nxt : Nat} {j : Job} (hpc : k.pc t = .purge j (.dfree cur nxt)) :
    (step C (k.tags μ) t = .ub ∧ LastSmall k μ t cur) ∨ Good Ω cl C k μ t := by
  have ht := I.m.lt (t := t) (by rw [hpc]; simp)
  obtain ⟨q, R, h⟩ := I.m.q t
  have hcons : q.cons = .dfree cur nxt := by rw [h.cons, hpc]; rfl
  obtain ⟨f1, f2, f3⟩ := Queue.inFlight_dfree R hcons
  obtain ⟨l, hl, hlo, hlp⟩ := (h.fl cur).1 f1
  have hptr : readLE k.w.mem (cur + 8) 8 = cur := by
    rw [← hlp]
    refine I.m.ptr l hl (fun u hu => ?_)
    have := f2 u
    rw [h.prod, ← hlp, ← hlo] at this
    exact this hu
  obtain ⟨c, hc⟩ : ∃ c, k.chs[t]? = some c := ⟨_, List.getElem?_eq_getElem ht⟩
  obtain ⟨k', e, m, M⟩ := I.m.purgeStep (C := C) (W := By (endSet μ) t) hpc
  have e0 := e
  unfold purgeStep at e0
  simp only at e0
  rw [hptr, PS.loc_eq (s := k.ps) hc, Outcome.ok_bind] at e0
  obtain ⟨u, e1, e2⟩ := Outcome.bind_eq_ok e0
  have e2 := Outcome.ok.inj e2
  have hstep : step C (k.tags μ) t = (do
      let v ← chainFree (lightSource C) C (CS.tag ⟨k.ps.w, c⟩ (μ t)) cur
      return ({ (k.tags μ).setPs ((k.ps.tags μ).put t v) with G := k.G.drop cur }.go t (.purge j (.dread nxt)), none)) := by
    rw [step_alive I]
    · unfold mstep
      have hp : (k.tags μ).pc t = .purge j (.dfree cur nxt) := hpc
      rw [hp]
      simp only
      unfold purgeStep
      simp only
      have hptr' : readLE (k.tags μ).w.mem (cur + 8) 8 = cur := hptr
      rw [hptr']
      have hloc : (k.tags μ).ps.loc t = .ok (CS.tag ⟨k.ps.w, c⟩ (μ t)) := tags_loc (s := k.ps) hc
      rw [hloc, Outcome.ok_bind]
      cases chainFree (lightSource C) C (CS.tag ⟨k.ps.w, c⟩ (μ t)) cur <;> rfl
    · intro i hi
      unfold used at hi
      have hp : (k.tags μ).pc t = .purge j (.dfree cur nxt) := hpc
      rw [hp] at hi
      rw [List.mem_singleton.1 hi, ← hlo]
      exact I.alive (MSpec.queued_all hl)
  have hk : k'.chs = k.chs.set t u.c := by rw [← e2]; rfl
  have hG : k'.G = k.G.drop cur := by rw [← e2]; rfl
  have hpos : j.Pos (.purge j (.dread nxt)) := Or.inr ⟨_, rfl⟩
  rw [← hlp] at e1
  rcases I.free (k' := k') (t := t) (x := .purge j (.dread nxt)) (MSpec.queued_all hl) hlo hc e1 hk
    (fun b hb hbp => by rw [hG]; exact drop_mem.2 ⟨hb, by rw [← hlp]; exact hbp⟩) (by rw [← e2]; rfl) m
    (fun hr => by
      have := I.pc t hr
      rw [hpc] at this
      exact this.job hpos) (fun i => hpos.proj i) (fun b hb => by rw [hG] at hb; exact (drop_queued.1 hb).1) with ⟨h1, h2⟩ | ⟨n, h1, h2, h3⟩
  · left
    rw [hlp] at h1 h2
    refine ⟨?_, h2⟩
    rw [hstep, h1]
    rfl
  · right
    refine ⟨k', upd μ t n, none, ?_, h2, M, h3⟩
    rw [hlp] at h1
    rw [hstep, h1, Outcome.ok_bind, tags_put, ← e2]
    rfl

/-- A free in a chain that is thread safe, or in the own chain. -/
theorem Inv.lfree (I : Inv Ω cl k μ) {t i p r : Nat} (hpc : k.pc t = .lfree i p r) :
    (step C (k.tags μ) t = .ub ∧ LastSmall k μ i p) ∨ Good Ω cl C k μ t := by
  have hrun : μ t = .run := I.runs (by rw [hpc]; rintro (h | ⟨_, h | ⟨_, h⟩⟩) <;> cases h)
  have ok := I.m.th t
  rw [hpc] at ok
  obtain ⟨_, _, hpr, l, hl, hlp, hlo⟩ := ok
  obtain ⟨c, hc⟩ : ∃ c, k.chs[i]? = some c := by
    obtain ⟨c, hc⟩ := I.m.inv.chain_some (MSpec.hand_all hl)
    exact ⟨c, by rw [← hlo]; exact hc⟩
  obtain ⟨k', o, e, m, M⟩ := I.m.lfree (C := C) hpc
  have e0 := e
  unfold mstep at e0
  rw [hpc] at e0
  simp only at e0
  rw [PS.loc_eq (s := k.ps) hc, Outcome.ok_bind] at e0
  obtain ⟨u, e1, e2⟩ := Outcome.bind_eq_ok e0
  obtain ⟨e2, e3⟩ := Prod.mk.inj (Outcome.ok.inj e2)
  have hstep : step C (k.tags μ) t = (do
      let v ← chainFree (lightSource C) C (CS.tag ⟨k.ps.w, c⟩ (μ i)) p
      return { (k.tags μ).setPs ((k.ps.tags μ).put i v) with G := k.G.drop p }.ret t r) := by
    rw [step_alive I]
    · unfold mstep
      have hp : (k.tags μ).pc t = .lfree i p r := hpc
      rw [hp]
      simp only
      have hloc : (k.tags μ).ps.loc i = .ok (CS.tag ⟨k.ps.w, c⟩ (μ i)) := tags_loc (s := k.ps) hc
      rw [hloc, Outcome.ok_bind]
      rfl
    · intro j hj
      unfold used at hj
      have hp : (k.tags μ).pc t = .lfree i p r := hpc
      rw [hp] at hj
      rw [List.mem_singleton.1 hj, ← hlo]
      exact I.alive (MSpec.hand_all hl)
  have hk : k'.chs = k.chs.set i u.c := by rw [← e2]; rfl
  have hG : k'.G = (k.G.drop p).toLive r := by rw [← e2]
  rw [← hlp] at e1
  rcases I.free (k' := k') (t := t) (x := .idle) (MSpec.hand_all hl) hlo hc e1 hk
    (fun b hb hbp => by
      rw [hG]
      exact ((k.G.drop p).toLive_all r).mem_iff.2 (drop_mem.2 ⟨hb, by rw [← hlp]; exact hbp⟩)) (by rw [← e2]; rfl) m
    (fun hr => absurd hrun hr) (fun i => rfl) (fun b hb => by
      rw [hG] at hb
      exact (drop_queued.1 (drop_queued.1 hb).1).1) with ⟨h1, h2⟩ | ⟨n, h1, h2, h3⟩
  · left
    rw [hlp] at h1 h2
    refine ⟨?_, h2⟩
    rw [hstep, h1]
    rfl
  · right
    refine ⟨k', upd μ i n, o, ?_, h2, M, h3⟩
    rw [hlp] at h1
    rw [hstep, h1, Outcome.ok_bind, tags_put, ← e2, ← e3]
    rfl

/-! ## A resize in a chain -/

/-- The resize of a block. -/
theorem Inv.rlocal (hf : C.reallocFactor ≠ 0) (I : Inv Ω cl k μ) {t i p b n : Nat} (hpc : k.pc t = .rlocal i p b n) :
    (step C (k.tags μ) t = .ub ∧ ¬ StepMem k t) ∨ Good Ω cl C k μ t := by
  have hrun : μ t = .run := I.runs (by rw [hpc]; rintro (h | ⟨_, h | ⟨_, h⟩⟩) <;> cases h)
  have ok := I.m.th t
  rw [hpc] at ok
  obtain ⟨hby, l, ⟨_, hp0, hn0, _, c0, hc0, hop, hl, hlp, _⟩, hlo⟩ := ok
  obtain ⟨c, hc⟩ : ∃ c, k.chs[i]? = some c := by
    obtain ⟨c, hc⟩ := I.m.inv.chain_some (MSpec.hand_all hl)
    exact ⟨c, by rw [← hlo]; exact hc⟩
  have halive : μ i ≠ .ended true := by rw [← hlo]; exact I.alive (MSpec.hand_all hl)
  have q := (I.m.inv.chain (show k.ps.chs[i]? = some c from hc)).1
  obtain ⟨T1, T2⟩ := chainRealloc_tag (S := lightSource C) (C := C) (b := b) (p := p) (n := n) (m := μ i) q halive hp0 hn0
  have hstep : step C (k.tags μ) t = (do
      let (v, r) ← chainRealloc (lightSource C) C b (CS.tag ⟨k.ps.w, c⟩ (μ i)) p n
      return { (k.tags μ).setPs ((k.ps.tags μ).put i v) with
        G := if r = p then k.G.resize p n else (k.G.drop p).add t i r n (decide (b ≤ 1)) }.ret t r) := by
    rw [step_alive I]
    · unfold mstep
      have hp : (k.tags μ).pc t = .rlocal i p b n := hpc
      rw [hp]
      simp only
      have hloc : (k.tags μ).ps.loc i = .ok (CS.tag ⟨k.ps.w, c⟩ (μ i)) := tags_loc (s := k.ps) hc
      rw [hloc, Outcome.ok_bind]
      rfl
    · intro j hj
      unfold used at hj
      have hp : (k.tags μ).pc t = .rlocal i p b n := hpc
      rw [hp] at hj
      rw [List.mem_singleton.1 hj]
      exact halive
  have hplain : mstep C k t = (do
      let (v, r) ← chainRealloc (lightSource C) C b ⟨k.ps.w, c⟩ p n
      return { k.setPs (k.ps.put i v) with
        G := if r = p then k.G.resize p n else (k.G.drop p).add t i r n (decide (b ≤ 1)) }.ret t r) := by
    unfold mstep
    rw [hpc]
    simp only
    rw [PS.loc_eq (s := k.ps) hc, Outcome.ok_bind]
  rcases I.m.rlocal hf (C := C) hpc with ⟨h1, h2⟩ | ⟨k', o, e, m, M⟩
  · left
    refine ⟨?_, fun h => h1 (by unfold StepMem at h; rw [hpc] at h; exact h)⟩
    rw [hplain] at h2
    rw [hstep]
    cases hr : chainRealloc (lightSource C) C b ⟨k.ps.w, c⟩ p n with
    | ub => rw [T1 hr]; rfl
    | ok x => rw [hr] at h2; cases h2
    | abort => rw [hr] at h2; cases h2
    | diverge => rw [hr] at h2; cases h2
  · right
    rw [hplain] at e
    obtain ⟨⟨v, r⟩, e1, e2⟩ := Outcome.bind_eq_ok e
    obtain ⟨e2, e3⟩ := Prod.mk.inj (Outcome.ok.inj e2)
    have hk : k'.chs = k.chs.set i v.c := by rw [← e2]; rfl
    have hlen : i < k.chs.length := (List.getElem?_eq_some_iff.1 hc).1
    have hget : k'.chs[i]? = some v.c := by rw [hk]; simp [hlen]
    have hpc' : k'.pc = upd k.pc t .idle := by rw [← e2]; rfl
    -- the chain holds the resized block
    have hz : v.c.cnt ≠ 0 := by
      obtain ⟨c1, g1, g2⟩ := M.ret r e3.symm
      rw [hc0] at g1
      obtain rfl := Option.some.inj g1
      have J' := m.inv.chain (show k'.ps.chs[i]? = some v.c from hget)
      unfold Returned at g2
      rw [hop] at g2
      have hb : ∃ x ∈ k'.G.all, x.owner = i := by
        have hrz := (g2.2.2 hp0 hn0).1
        by_cases hrp : r = p
        · refine ⟨{ l with len := n }, ?_, hlo⟩
          rw [← e2]
          refine ((MSpec.toLive_all _ r).mem_iff).2 ?_
          simp only
          rw [if_pos hrp, k.G.resize_all]
          refine List.mem_map.2 ⟨l, MSpec.hand_all hl, ?_⟩
          unfold PBlock.relen
          rw [if_pos hlp]
        · refine ⟨⟨i, r, n, decide (b ≤ 1)⟩, ?_, rfl⟩
          rw [← e2]
          refine ((MSpec.toLive_all _ r).mem_iff).2 ?_
          simp only
          rw [if_neg hrp]
          exact MSpec.hand_all ((MSpec.add_hand hrz).2 (Or.inl rfl))
      obtain ⟨x, hx, hxo⟩ := hb
      have := J'.2.2.2 x hx hxo
      omega
    have hne : ∀ j, j ≠ i → k'.chs[j]? = k.chs[j]? := fun j h => by rw [hk, List.getElem?_set_ne (Ne.symm h)]
    refine ⟨k', μ, o, ?_, I.keep m (t := t) (by rw [hk]; simp) (fun j hj => hne j (fun h => halive (by rw [← h]; exact hj)))
      (fun u hu => by rw [hpc', upd_ne hu]) (fun h => absurd hrun h), M, ⟨by rw [hk]; simp, fun u hu => by rw [hpc', upd_ne hu],
      fun j => Or.inl rfl, fun j d d' hj hd hd' hz' => ?_, fun u j h h' => ?_, fun x hx hx' => ?_⟩⟩
    · rw [hstep, T2 v r e1 hz, Outcome.ok_bind]
      simp only
      rw [tags_put_same, ← e2, ← e3]
      rfl
    · by_cases hji : j = i
      · subst hji
        rw [hget] at hd'
        rw [← Option.some.inj hd']
        exact hz
      · rw [hne j hji, hd] at hd'
        rw [← Option.some.inj hd']
        exact hz'
    · rw [hpc'] at h'
      by_cases hu : u = t
      · subst hu; rw [upd_same] at h'; exact absurd rfl h'
      · rw [upd_ne hu] at h'; exact absurd h h'
    · obtain ⟨_, l0, r0, _, _, h4⟩ := M.entered x hx hx'
      rw [hpc] at h4
      cases h4

/-! ## The other steps -/

/-- A step of a thread that runs, which does the same with tags, and changes no other chain than its own. -/
theorem Inv.same (I : Inv Ω cl k μ) {t : Nat} {o : Option Nat} (hrun : μ t = .run) (e : step C (k.tags μ) t = .ok (k'.tags μ, o))
    (m : MInv Ω cl (endSet μ) k') (M : MOut (By (endSet μ) t) k k' t o) (hlen : k'.chs.length = k.chs.length)
    (hchs : ∀ i, i ≠ t → k'.chs[i]? = k.chs[i]?) (hpc : ∀ u, u ≠ t → k'.pc u = k.pc u)
    (hp : ∀ i, projP i (k.pc t) = .idle → projP i (k'.pc t) ≠ .idle → μ i = .run)
    (hq : ∀ l ∈ k'.G.queued, l ∉ k.G.queued → μ l.owner = .run) : Good Ω cl C k μ t := by
  have hne : ∀ i d, μ i = .ended d → i ≠ t := fun i d h e => by rw [e, hrun] at h; cases h
  refine ⟨k', μ, o, e, I.keep m (t := t) hlen (fun i hi => hchs i (hne i _ hi)) hpc (fun h => absurd hrun h), M,
    ⟨hlen, hpc, fun i => Or.inl rfl, fun i c c' hi h1 h2 h3 => ?_, fun u i h1 h2 => ?_, hq⟩⟩
  · rw [hchs i (hne i _ hi), h1] at h2
    obtain rfl := Option.some.inj h2
    exact h3
  · by_cases hu : u = t
    · subst hu; exact hp i h1 h2
    · rw [hpc u hu] at h2; exact absurd h1 h2

theorem MOut.noQueue {W : Nat → Prop} {t : Nat} {o : Option Nat} (M : MOut W k k' t o) (h : ∀ p r, k.pc t ≠ .look p r) :
    ∀ l ∈ k'.G.queued, l ∉ k.G.queued → μ l.owner = .run := by
  intro l hl hl'
  obtain ⟨_, l0, r0, _, _, h4⟩ := M.entered l hl hl'
  exact absurd h4 (h _ _)

/-- Allocation. -/
theorem Inv.alloc (I : Inv Ω cl k μ) {t b n : Nat} {a : After} (hpc : k.pc t = .alloc b n a) :
    (step C (k.tags μ) t = .ub ∧ ¬ StepMem k t) ∨ Good Ω cl C k μ t := by
  have hrun : μ t = .run := I.runs (by rw [hpc]; rintro (h | ⟨_, h | ⟨_, h⟩⟩) <;> cases h)
  have ht := I.m.lt (t := t) (by rw [hpc]; simp)
  obtain ⟨c, hc⟩ : ∃ c, k.chs[t]? = some c := ⟨_, List.getElem?_eq_getElem ht⟩
  have hp : (k.tags μ).pc t = .alloc b n a := hpc
  have hal : step C (k.tags μ) t = mstep C (k.tags μ) t := by
    refine step_alive I (fun i hi => ?_)
    unfold used at hi
    rw [hp] at hi
    rw [List.mem_singleton.1 hi, hrun]
    simp
  have hloc : (k.tags μ).ps.loc t = .ok ⟨k.ps.w, c⟩ := by
    have := tags_loc (s := k.ps) (μ := μ) hc
    rw [hrun] at this
    exact this
  have hput : ∀ u : CS Light, (k.tags μ).ps.put t u = (k.ps.put t u).tags μ := by
    intro u
    have := tags_put_same (s := k.ps) (μ := μ) (i := t) u
    rw [hrun] at this
    exact this
  have hstep : step C (k.tags μ) t = (do let (k1, o) ← mstep C k t; return (k1.tags μ, o)) := by
    rw [hal]
    unfold mstep
    rw [hpc, hp]
    simp only
    rw [hloc, PS.loc_eq (s := k.ps) hc, Outcome.ok_bind, Outcome.ok_bind]
    have : (MS.ps k).w = k.w := rfl
    rw [this]
    cases allocAlign (lightSource C) ⟨k.w, c⟩ b (if n = 0 then 1 else n) with
    | ok x =>
      obtain ⟨u, r⟩ := x
      simp only [Outcome.ok_bind]
      rw [hput]
      cases a <;> rfl
    | ub => rfl
    | abort => rfl
    | diverge => rfl
  rcases I.m.alloc (C := C) hpc with ⟨h1, h2⟩ | ⟨k', o, e, m, M⟩
  · left
    rw [hstep, h2]
    exact ⟨rfl, fun h => h1 (by unfold StepMem at h; rw [hpc] at h; exact h)⟩
  · right
    have hk : ∃ v : Chain, k'.chs = k.chs.set t v := by
      have e0 := e
      unfold mstep at e0
      rw [hpc] at e0
      simp only at e0
      obtain ⟨u1, _, e0⟩ := Outcome.bind_eq_ok e0
      obtain ⟨⟨u2, r⟩, _, e0⟩ := Outcome.bind_eq_ok e0
      simp only at e0
      cases a <;> (obtain ⟨rfl, _⟩ := Prod.mk.inj (Outcome.ok.inj e0); exact ⟨u2.c, rfl⟩)
    obtain ⟨v, hk⟩ := hk
    have S := mstep_shape e
    refine I.same hrun (o := o) (by rw [hstep, e]; rfl) m M (by rw [hk]; simp) (fun i hi => by rw [hk, List.getElem?_set_ne (Ne.symm hi)])
      S.pc (fun i _ h => absurd ?_ h) (MOut.noQueue M (by rw [hpc]; intro p r h; cases h))
    have e0 := e
    unfold mstep at e0
    rw [hpc] at e0
    simp only at e0
    obtain ⟨u1, _, e0⟩ := Outcome.bind_eq_ok e0
    obtain ⟨⟨u2, r⟩, _, e0⟩ := Outcome.bind_eq_ok e0
    simp only at e0
    cases a <;>
      (obtain ⟨rfl, _⟩ := Prod.mk.inj (Outcome.ok.inj e0)
       simp only [MS.go, upd_same]
       rfl)

/-- A step that leaves the chains alone, as the same step without tags. -/
theorem Inv.free_of (I : Inv Ω cl k μ) {t : Nat} {o : Option Nat} (hrun : μ t = .run) (hal : ∀ i ∈ used (k.tags μ) t, μ i ≠ .ended true)
    (hs : mstep C (k.tags μ) t = (do let (k1, o) ← mstep C k t; return (k1.tags μ, o))) (e : mstep C k t = .ok (k', o))
    (m : MInv Ω cl (endSet μ) k') (M : MOut (By (endSet μ) t) k k' t o) (hchs : k'.chs = k.chs)
    (hp : ∀ i, projP i (k.pc t) = .idle → projP i (k'.pc t) ≠ .idle → μ i = .run)
    (hq : ∀ l ∈ k'.G.queued, l ∉ k.G.queued → μ l.owner = .run) : Good Ω cl C k μ t :=
  I.same hrun (o := o) (by rw [step_alive I hal, hs, e]; rfl) m M (by rw [hchs]) (fun i _ => by rw [hchs]) (mstep_shape e).pc hp hq

/-- The end of calloc. -/
theorem Inv.zero (I : Inv Ω cl k μ) {t r n : Nat} (hpc : k.pc t = .zero r n) : Good Ω cl C k μ t := by
  have hrun : μ t = .run := I.runs (by rw [hpc]; rintro (h | ⟨_, h | ⟨_, h⟩⟩) <;> cases h)
  have hp : (k.tags μ).pc t = .zero r n := hpc
  obtain ⟨k', o, e, m, M⟩ := I.m.zero (C := C) hpc
  have e0 := e
  unfold mstep at e0
  rw [hpc] at e0
  obtain ⟨y, _, e0⟩ := Outcome.bind_eq_ok e0
  obtain ⟨hk, _⟩ := Prod.mk.inj (Outcome.ok.inj e0)
  refine I.free_of hrun (fun i hi => ?_) ?_ e m M (by rw [← hk]; rfl) (fun i _ h => absurd ?_ h)
    (MOut.noQueue M (by rw [hpc]; intro p r h; cases h))
  · unfold used at hi; rw [hp] at hi; cases hi
  · unfold mstep
    rw [hpc, hp]
    simp only
    have : (k.tags μ).w = k.w := rfl
    rw [this]
    cases memZero k.w.mem r n <;> rfl
  · rw [← hk]
    simp only [MS.setMem, upd_same]
    rfl

/-- The copy of realloc. -/
theorem Inv.copy (I : Inv Ω cl k μ) {t r p n : Nat} (hpc : k.pc t = .copy r p n) : Good Ω cl C k μ t := by
  have hrun : μ t = .run := I.runs (by rw [hpc]; rintro (h | ⟨_, h | ⟨_, h⟩⟩) <;> cases h)
  have hp : (k.tags μ).pc t = .copy r p n := hpc
  obtain ⟨k', o, e, m, M⟩ := I.m.copy (C := C) hpc
  have e0 := e
  unfold mstep at e0
  rw [hpc] at e0
  obtain ⟨y, _, e0⟩ := Outcome.bind_eq_ok e0
  obtain ⟨hk, _⟩ := Prod.mk.inj (Outcome.ok.inj e0)
  refine I.free_of hrun (fun i hi => ?_) ?_ e m M (by rw [← hk]; rfl) (fun i _ h => absurd ?_ h)
    (MOut.noQueue M (by rw [hpc]; intro p r h; cases h))
  · unfold used at hi; rw [hp] at hi; cases hi
  · unfold mstep
    rw [hpc, hp]
    simp only
    have : (k.tags μ).w = k.w := rfl
    rw [this]
    cases (if r ≠ 0 then do
        let g ← posixGetSize k.w.mem p
        memCopy k.w.mem r p (if n < g then n else g)
      else pure k.w.mem) <;> rfl
  · rw [← hk]
    simp only [MS.setMem, MS.go, upd_same]
    rfl

/-- The steps of a push. -/
theorem Inv.push (I : Inv Ω cl k μ) {t i r : Nat} {c : PPC} (hpc : k.pc t = .push i c r) : Good Ω cl C k μ t := by
  have hrun : μ t = .run := I.runs (by rw [hpc]; rintro (h | ⟨_, h | ⟨_, h⟩⟩) <;> cases h)
  have hp : (k.tags μ).pc t = .push i c r := hpc
  obtain ⟨k', o, e, m, M⟩ := I.m.pushStep (C := C) hpc
  obtain ⟨q, R, Q⟩ := I.m.q i
  have hprod : q.prod t = c := by rw [Q.prod]; simp only; rw [hpc]; simp [projP]
  have hin : ∀ x, InFlight q x → μ i ≠ .ended true := by
    intro x hx
    obtain ⟨l, l1, l2, _⟩ := (Q.fl x).1 hx
    rw [← l2]
    exact I.alive (MSpec.queued_all l1)
  have e0 := e
  unfold mstep at e0
  rw [hpc] at e0
  simp only at e0
  have key : k'.chs = k.chs ∧ ∀ j, projP j (k.pc t) = .idle → projP j (k'.pc t) = .idle := by
    have hproj : ∀ (j : Nat) (x : PPC), c ≠ .idle → projP j (.push i c r) = .idle → projP j (.push i x r) = .idle := by
      intro j x h0 h
      simp only [projP] at h ⊢
      split
      · rename_i h1; rw [if_pos h1] at h; exact absurd h h0
      · rfl
    unfold pushStep at e0
    cases c with
    | idle =>
      obtain ⟨hk, _⟩ := Prod.mk.inj (Outcome.ok.inj e0)
      rw [← hk]
      exact ⟨rfl, fun j _ => by simp only [upd_same]; rfl⟩
    | clear x =>
      obtain ⟨v, _, e0⟩ := Outcome.bind_eq_ok e0
      split at e0
      · cases e0
      · obtain ⟨hk, _⟩ := Prod.mk.inj (Outcome.ok.inj e0)
        rw [← hk, hpc]
        exact ⟨rfl, fun j h => by simp only [MS.go, upd_same]; exact hproj j _ (by simp) h⟩
    | swap x =>
      obtain ⟨hk, _⟩ := Prod.mk.inj (Outcome.ok.inj e0)
      rw [← hk, hpc]
      exact ⟨rfl, fun j h => by simp only [MS.go, upd_same]; exact hproj j _ (by simp) h⟩
    | link x p =>
      simp only at e0
      split at e0
      · obtain ⟨hk, _⟩ := Prod.mk.inj (Outcome.ok.inj e0)
        rw [← hk]
        exact ⟨rfl, fun j _ => by simp only [upd_same]; rfl⟩
      · obtain ⟨hk, _⟩ := Prod.mk.inj (Outcome.ok.inj e0)
        rw [← hk]
        exact ⟨rfl, fun j _ => by simp only [MS.setMem, upd_same]; rfl⟩
  refine I.free_of hrun (fun j hj => ?_) ?_ e m M key.1 (fun j h h' => absurd (key.2 j h) h')
    (MOut.noQueue M (by rw [hpc]; intro p r h; cases h))
  · unfold used at hj
    rw [hp] at hj
    cases c with
    | idle => cases hj
    | clear x => cases hj
    | swap x =>
      rw [List.mem_singleton.1 hj]
      exact hin x (Or.inl ⟨t, Or.inr hprod⟩)
    | link x p =>
      simp only at hj
      split at hj
      · rw [List.mem_singleton.1 hj]
        exact hin x (Queue.inFlight_link R hprod).1
      · cases hj
  · unfold mstep
    rw [hpc, hp]
    simp only
    unfold pushStep
    cases c with
    | idle => rfl
    | clear x =>
      simp only
      have : (k.tags μ).w = k.w := rfl
      rw [this]
      cases getChunk k.w.mem x with
      | ok v =>
        simp only [Outcome.ok_bind]
        split <;> rfl
      | ub => rfl
      | abort => rfl
      | diverge => rfl
    | swap x => rfl
    | link x p =>
      simp only
      split <;> rfl

/-! ## The searches -/

theorem found_tags (I : Inv Ω cl k μ) {t : Nat} {l : PBlock} (hl : (t, l) ∈ k.G.hand) : found (k.tags μ) l.ptr = [l.owner] := by
  obtain ⟨R, c, e, _⟩ := I.m.look hl
  unfold found
  rw [tags_look, e]
  rfl

/-- The search of the chain of a block, in `sctk_free`. -/
theorem look_step (I : Inv Ω cl k μ) {t r : Nat} {l : PBlock} {R : Regions} {c cu : Chain} (hpc : k.pc t = .look l.ptr r)
    (hl : (t, l) ∈ k.G.hand) (hc : k.chs[l.owner]? = some c) (hcu : k.chs[t]? = some cu)
    (e1 : k.look l.ptr = .ok ({ k with w := { k.w with regs := R } }, some (c.addr, l.owner))) :
    step C (k.tags μ) t = if (c.tag (μ l.owner)).threadSafe = true ∨ c.addr = cu.addr then
      .ok (MS.tags (MS.go { k with w := { k.w with regs := R } } t (.lfree l.owner l.ptr r)) μ, none)
    else .ok (MS.tags (MS.go { k with w := { k.w with regs := R }, G := k.G.toQueue l.ptr } t (.push l.owner (.clear l.ptr) r)) μ, none) := by
  have hp : (k.tags μ).pc t = .look l.ptr r := hpc
  have hp0 := I.m.ptr_ne (MSpec.hand_all hl)
  have hal : ∀ i ∈ used (k.tags μ) t, μ i ≠ .ended true := by
    intro i hi
    unfold used at hi
    rw [hp] at hi
    simp only at hi
    rw [if_neg hp0, found_tags I hl] at hi
    rw [List.mem_singleton.1 hi]
    exact I.alive (MSpec.hand_all hl)
  rw [step_alive I hal]
  unfold mstep
  rw [hp]
  simp only
  have elook : (k.tags μ).look l.ptr = .ok (MS.tags { k with w := { k.w with regs := R } } μ, some (c.addr, l.owner)) := by
    rw [tags_look, e1]; rfl
  have hloc : (k.tags μ).ps.loc t = .ok (CS.tag ⟨k.ps.w, cu⟩ (μ t)) := tags_loc (s := k.ps) hcu
  have hloc2 : (MS.tags { k with w := { k.w with regs := R } } μ).ps.loc l.owner =
      .ok (CS.tag ⟨{ k.w with regs := R }, c⟩ (μ l.owner)) := tags_loc (s := MS.ps { k with w := { k.w with regs := R } }) hc
  rw [if_neg hp0, hloc, Outcome.ok_bind, elook, Outcome.ok_bind]
  simp only
  rw [hloc2, Outcome.ok_bind]
  have h1 : (CS.tag ⟨k.ps.w, cu⟩ (μ t)).c.addr = cu.addr := Chain.tag_addr _ _
  rw [h1]
  rfl

/-- The search in free. -/
theorem Inv.look (I : Inv Ω cl k μ) {t p r : Nat} (hpc : k.pc t = .look p r) : Good Ω cl C k μ t := by
  have hp : (k.tags μ).pc t = .look p r := hpc
  have ht := I.m.lt (t := t) (by rw [hpc]; simp)
  have ok := I.m.th t
  rw [hpc] at ok
  obtain ⟨okr, okp⟩ := ok
  by_cases hp0 : p = 0
  · obtain ⟨k', o, e, m, M⟩ := I.m.lookStep (C := C) hpc
    have e0 := e
    unfold mstep at e0
    rw [hpc] at e0
    simp only at e0
    rw [if_pos hp0] at e0
    obtain ⟨hk, ho⟩ := Prod.mk.inj (Outcome.ok.inj e0)
    have hidle : k'.pc t = .idle := by rw [← hk]; exact upd_same _ _ _
    refine I.quiet (o := o) ?_ m M (by rw [← hk]) (mstep_shape e).pc (fun _ => Or.inl hidle)
      (fun i _ h => absurd (by rw [hidle]; rfl) h) ?_
    · rw [step_alive I]
      · unfold mstep
        rw [hp]
        simp only
        rw [if_pos hp0, ← hk, ← ho]
        rfl
      · intro i hi
        unfold used at hi
        rw [hp] at hi
        simp only at hi
        rw [if_pos hp0] at hi
        cases hi
    · intro l hl hl'
      have : l ∈ k.G.queued := by
        rw [← hk] at hl
        exact (drop_queued.1 hl).1
      exact absurd this hl'
  have hrun : μ t = .run := I.runs (by
    rw [hpc]
    rintro (h | ⟨_, h | ⟨_, h⟩⟩)
    · cases h
    · exact hp0 (MPc.look.inj h).1
    · cases h)
  obtain ⟨hpr, l, hl, rfl⟩ := okp.resolve_left hp0
  have hal : ∀ i ∈ used (k.tags μ) t, μ i ≠ .ended true := by
    intro i hi
    unfold used at hi
    rw [hp] at hi
    simp only at hi
    rw [if_neg hp0, found_tags I hl] at hi
    rw [List.mem_singleton.1 hi]
    exact I.alive (MSpec.hand_all hl)
  obtain ⟨R, c, e1, hc, hts, J, haddr⟩ := I.m.look hl
  obtain ⟨cu, hcu⟩ : ∃ c, k.chs[t]? = some c := ⟨_, List.getElem?_eq_getElem ht⟩
  have hstep := look_step (C := C) I hpc hl hc hcu e1
  by_cases hrn : μ l.owner = .run
  · -- the chain is not thread safe
    obtain ⟨R', J', hs'⟩ := I.m.look_eq (C := C) hpc hl
    obtain ⟨k', o, e, m, M⟩ := I.m.lookStep (C := C) hpc
    have hkk : step C (k.tags μ) t = .ok (k'.tags μ, o) := by
      rw [step_alive I hal]
      have hs : mstep C (k.tags μ) t = (do let (k1, o) ← mstep C k t; return (k1.tags μ, o)) := by
        rw [← step_alive I hal, hstep]
        have hloc := PS.loc_eq (s := k.ps) hcu
        have hloc2 := PS.loc_eq (s := MS.ps { k with w := { k.w with regs := R } }) hc
        unfold mstep
        rw [hpc]
        simp only
        rw [if_neg hp0, hloc, Outcome.ok_bind, e1, Outcome.ok_bind]
        simp only
        rw [hloc2, Outcome.ok_bind, hrn]
        show (if c.threadSafe = true ∨ c.addr = cu.addr then _ else _) = _
        by_cases hcnd : c.threadSafe = true ∨ c.addr = cu.addr
        · simp only [if_pos hcnd]; rfl
        · simp only [if_neg hcnd]; rfl
      rw [hs, e]
      rfl
    have e0 := e
    rw [hs'] at e0
    by_cases ho : l.owner = t
    · rw [if_pos ho] at e0
      obtain ⟨hk, _⟩ := Prod.mk.inj (Outcome.ok.inj e0)
      refine I.same hrun hkk m M (by rw [← hk]; rfl) (fun i _ => by rw [← hk]; rfl) (mstep_shape e).pc
        (fun i _ h => absurd ?_ h) (fun x hx hx' => ?_)
      · rw [← hk]; simp only [MS.go, upd_same]; rfl
      · rw [← hk] at hx; exact absurd hx hx'
    · rw [if_neg ho] at e0
      obtain ⟨hk, _⟩ := Prod.mk.inj (Outcome.ok.inj e0)
      refine I.same hrun hkk m M (by rw [← hk]; rfl) (fun i _ => by rw [← hk]; rfl) (mstep_shape e).pc
        (fun i _ h => ?_) (fun x hx hx' => ?_)
      · rw [← hk] at h
        simp only [MS.go, upd_same, projP] at h
        split at h
        · rename_i h1; rw [← h1]; exact hrn
        · exact absurd rfl h
      · rw [← hk] at hx
        rcases ((PInv.nd I.m.inv).toQueue hl x).1 hx with rfl | h
        · exact hrn
        · exact absurd h hx'
  · -- the chain is thread safe: a free in the chain of the other thread
    rw [if_pos (Or.inl ((safe_tags I hc).2 hrn))] at hstep
    refine I.same hrun hstep ?_ (.quiet (fun _ _ _ _ => rfl) (fun _ => Iff.rfl) (fun _ => Iff.rfl)) rfl (fun _ _ => rfl)
      (fun u hu => upd_ne hu) (fun i _ h => absurd ?_ h) (fun x hx hx' => absurd hx hx')
    · refine I.m.local (t := t) (c := .lfree l.owner l.ptr r) rfl (fun _ _ => rfl) (Nat.le_refl _) (Or.inl ht) J rfl rfl
        (fun i => by rw [hpc]; rfl) (by rw [hpc]; rfl) (fun _ => Iff.rfl) (fun _ _ _ => Iff.rfl) (fun _ _ _ _ => rfl) ?_ ?_
      · exact ⟨Or.inr hrn, okr.congr ⟨rfl, fun _ h => h, fun _ _ _ _ => rfl⟩, hpr, l, hl, rfl, rfl⟩
      · intro m hm
        have := I.m.hand (t, m) hm
        rw [hpc] at this
        exact this
    · simp only [MS.go, upd_same]; rfl

/-- The search in realloc. -/
theorem Inv.rlook (I : Inv Ω cl k μ) {t p b n : Nat} (hpc : k.pc t = .rlook p b n) : Good Ω cl C k μ t := by
  have hp : (k.tags μ).pc t = .rlook p b n := hpc
  have hrun : μ t = .run := I.runs (by rw [hpc]; rintro (h | ⟨_, h | ⟨_, h⟩⟩) <;> cases h)
  have ht := I.m.lt (t := t) (by rw [hpc]; simp)
  have ok := I.m.th t
  rw [hpc] at ok
  obtain ⟨l, ok⟩ := ok
  obtain ⟨hg, hp0, hn, hs, c0, hc0, hop, ho⟩ := id ok
  obtain ⟨hl, rfl, h3, h4⟩ := id ho
  have hal : ∀ i ∈ used (k.tags μ) t, μ i ≠ .ended true := by
    intro i hi
    unfold used at hi
    rw [hp] at hi
    simp only at hi
    rw [found_tags I hl] at hi
    rw [List.mem_singleton.1 hi]
    exact I.alive (MSpec.hand_all hl)
  obtain ⟨R, c, e1, hc, hts, J, haddr⟩ := I.m.look hl
  obtain ⟨cu, hcu⟩ : ∃ c, k.chs[t]? = some c := ⟨_, List.getElem?_eq_getElem ht⟩
  have hstep : step C (k.tags μ) t = if c.addr = cu.addr ∨ (c.tag (μ l.owner)).threadSafe = true then
      .ok (MS.tags (MS.go { k with w := { k.w with regs := R } } t (.rlocal l.owner l.ptr b n)) μ, none)
    else .ok (MS.tags (MS.go { k with w := { k.w with regs := R } } t (.purge (.alloc b n (.move l.ptr)) .idle)) μ, none) := by
    rw [step_alive I hal]
    unfold mstep
    rw [hp]
    simp only
    have elook : (k.tags μ).look l.ptr = .ok (MS.tags { k with w := { k.w with regs := R } } μ, some (c.addr, l.owner)) := by
      rw [tags_look, e1]; rfl
    have hloc : (k.tags μ).ps.loc t = .ok (CS.tag ⟨k.ps.w, cu⟩ (μ t)) := tags_loc (s := k.ps) hcu
    have hloc2 : (MS.tags { k with w := { k.w with regs := R } } μ).ps.loc l.owner =
        .ok (CS.tag ⟨{ k.w with regs := R }, c⟩ (μ l.owner)) := tags_loc (s := MS.ps { k with w := { k.w with regs := R } }) hc
    rw [hloc, Outcome.ok_bind, elook, Outcome.ok_bind]
    simp only
    rw [hloc2, Outcome.ok_bind]
    have h1 : (CS.tag ⟨k.ps.w, cu⟩ (μ t)).c.addr = cu.addr := Chain.tag_addr _ _
    rw [h1]
    rfl
  have S : Same k { k with w := { k.w with regs := R } } t := ⟨rfl, fun _ h => h, fun _ _ _ _ => rfl⟩
  by_cases hby : By (endSet μ) t l.owner
  · rw [if_pos (hby.imp (fun h => (haddr cu hcu).2 h) (fun h => (safe_tags I hc).2 h))] at hstep
    refine I.same hrun hstep ?_ (.quiet (fun _ _ _ _ => rfl) (fun _ => Iff.rfl) (fun _ => Iff.rfl)) rfl (fun _ _ => rfl)
      (fun u hu => upd_ne hu) (fun i _ h => absurd ?_ h) (fun x hx hx' => absurd hx hx')
    · refine I.m.local (t := t) (c := .rlocal l.owner l.ptr b n) rfl (fun _ _ => rfl) (Nat.le_refl _) (Or.inl ht) J rfl rfl
        (fun i => by rw [hpc]; rfl) (by rw [hpc]; rfl) (fun _ => Iff.rfl) (fun _ _ _ => Iff.rfl) (fun _ _ _ _ => rfl) ?_ ?_
      · exact ⟨hby, l, (ok.congr S).congr Same.go, rfl⟩
      · intro m hm
        have := I.m.hand (t, m) hm
        rw [hpc] at this
        exact this
    · simp only [MS.go, upd_same]; rfl
  · have hnot : ¬ (c.addr = cu.addr ∨ (c.tag (μ l.owner)).threadSafe = true) := fun h =>
      hby (h.imp (fun h => (haddr cu hcu).1 h) (fun h => (safe_tags I hc).1 h))
    rw [if_neg hnot] at hstep
    refine I.same hrun hstep ?_ (.quiet (fun _ _ _ _ => rfl) (fun _ => Iff.rfl) (fun _ => Iff.rfl)) rfl (fun _ _ => rfl)
      (fun u hu => upd_ne hu) (fun i _ h => absurd ?_ h) (fun x hx hx' => absurd hx hx')
    · refine I.m.local (t := t) (c := .purge (.alloc b n (.move l.ptr)) .idle) rfl (fun _ _ => rfl) (Nat.le_refl _) (Or.inl ht) J rfl rfl
        (fun i => by rw [hpc]; rfl) (by rw [hpc]; rfl) (fun _ => Iff.rfl) (fun _ _ _ => Iff.rfl) (fun _ _ _ _ => rfl) ?_ ?_
      · exact ⟨hg, c0, hc0, hop, hp0, hn, l, (ho.congr S).congr Same.go⟩
      · intro m hm
        have := I.m.hand (t, m) hm
        rw [hpc] at this
        exact this
    · simp only [MS.go, upd_same]; rfl

/-! ## All the steps -/

/-- Why a step of thread `t` may fail. -/
def Fails (k : MS) (μ : Tags) (t : Nat) : Prop :=
  ¬ StepMem k t ∨ Late k μ t ∨
  (∃ i p r, k.pc t = .lfree i p r ∧ LastSmall k μ i p) ∨ ∃ j p n, k.pc t = .purge j (.dfree p n) ∧ LastSmall k μ t p

/-- One step. -/
theorem step_ok (hf : C.reallocFactor ≠ 0) (I : Inv Ω cl k μ) (t : Nat) :
    (step C (k.tags μ) t = .ub ∧ Fails k μ t) ∨ Good Ω cl C k μ t := by
  cases hpc : k.pc t with
  | idle =>
    right
    have hp : (k.tags μ).pc t = .idle := hpc
    refine I.quiet (k' := k) (o := none) ?_ I.m (.quiet (fun _ _ _ _ => rfl) (fun _ => Iff.rfl) (fun _ => Iff.rfl)) rfl
      (fun _ _ => rfl) (I.pc t) (fun i h h' => absurd h h') (fun l h h' => absurd h h')
    rw [step_alive I]
    · unfold mstep; rw [hp]
    · intro i hi
      unfold used at hi
      rw [hp] at hi
      cases hi
  | purge j c =>
    by_cases h : ∃ cur nxt, c = .dfree cur nxt
    · obtain ⟨cur, nxt, rfl⟩ := h
      exact (I.dfree hpc).imp (fun h => ⟨h.1, Or.inr (Or.inr (Or.inr ⟨j, cur, nxt, hpc, h.2⟩))⟩) id
    · exact (I.purge (fun cur nxt e => h ⟨cur, nxt, e⟩) hpc).imp (fun h => ⟨h.1, Or.inr (Or.inl h.2)⟩) id
  | alloc b n a => exact (I.alloc hpc).imp (fun h => ⟨h.1, Or.inl h.2⟩) id
  | zero r n => exact Or.inr (I.zero hpc)
  | copy r p n => exact Or.inr (I.copy hpc)
  | look p r => exact Or.inr (I.look hpc)
  | lfree i p r => exact (I.lfree hpc).imp (fun h => ⟨h.1, Or.inr (Or.inr (Or.inl ⟨i, p, r, hpc, h.2⟩))⟩) id
  | push i c r => exact Or.inr (I.push hpc)
  | rlook p b n => exact Or.inr (I.rlook hpc)
  | rlocal i p b n => exact (I.rlocal hf hpc).imp (fun h => ⟨h.1, Or.inl h.2⟩) id

end

end ConcEnds

end MpcAlloc
