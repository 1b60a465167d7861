import Verif.ConcEndsReach
import Verif.PropsConcPosix

/-
Property C58: threads that end while the others run. What holds is proved for all the interleavings of any number of threads;
four claims that one would make of the end of a thread are refuted.
-/

namespace MpcAlloc.ConcEnds

open Queue (CPC PPC upd upd_same upd_ne InFlight)

/-! ## Specification -/

/-- The next step of `t` frees the block at `p` in the chain `i`. -/
def FreesIn (k : MS) (t i p : Nat) : Prop := (∃ r, k.pc t = .lfree i p r) ∨ (i = t ∧ ∃ j n, k.pc t = .purge j (.dfree p n))

/-- The block at `p` is the last block of thread `i`. -/
def Last (k : MS) (i p : Nat) : Prop := (∃ l ∈ k.G.all, l.owner = i ∧ l.ptr = p) ∧ ∀ l ∈ k.G.all, l.owner = i → l.ptr = p

/-- The block is below the huge limit. -/
def Small (k : MS) (l : PBlock) : Prop :=
  l.len < 1048576 ∧ (l.plain = true → ∀ z, posixGetSize k.w.mem l.ptr = .ok z → calcChunkSize (z + 16) ≤ 1048576)

/-! ## Helpers -/

section
variable {C : Config} {X : MCall → Prop} {k k' : MS}

theorem huge_iff {Ω : Env} {cl : Prop} {s : PS} {G : PSpec} (I : PInv Ω cl s G) {l : PBlock} {c : Chain} (hl : l ∈ G.live)
    (hc : s.chs[l.owner]? = some c) : (1048576 ≤ l.len → HugeAt ⟨s.w, c⟩ l.ptr) ∧
      (l.plain = true → ∀ z, posixGetSize s.w.mem l.ptr = .ok z → (HugeAt ⟨s.w, c⟩ l.ptr ↔ 1048576 < calcChunkSize (z + 16))) := by
  obtain ⟨H, L, P, B, K⟩ := I
  obtain ⟨g, kk, hg, hku, _, hp, hfit, hst⟩ := K.live l hl
  obtain ⟨b1, b2⟩ := B.usable hg hku
  have b2 := b2 c hc
  rw [hp] at b1 b2
  obtain ⟨cc, hcc, T⟩ := B.getH hg
  have hroom := T.ch.room kk hku
  have hr := T.ch.wf.has_range hku.1
  have hge := T.ch.wf.uptr_ge kk
  refine ⟨fun h => b2.2 ?_, fun hpl z hz => ?_⟩
  · rw [calc_eq (by omega)]
    omega
  · rw [b1] at hz
    have hz := Outcome.ok.inj hz
    have hoff : kk.uptr = kk.addr + 16 := by unfold Ck.uptr Ck.off; rw [hst hpl]
    have : z + 16 = kk.size := by omega
    rw [this]
    exact b2

theorem events_trans {k1 : MS} (h : Reach C X k) (e : Events C X k k1) : Reach C X k1 := by
  obtain ⟨k0, h0, e0⟩ := h
  refine ⟨k0, h0, ?_⟩
  induction e with
  | refl => exact e0
  | tail _ e ih => exact .tail ih e

theorem Reach.event (h : Reach C X k) (e : Event C X k k') : Reach C X k' := events_trans h (.tail .refl e)

/-- A predicate that all the events keep. -/
theorem Events.keep {cl : Prop} (P : MS → Tags → Prop) (hf : C.reallocFactor ≠ 0) (hX : cl → ∀ op, X op → MClean op)
    (hP : ∀ Ω Ω' K K' μ μ', Inv Ω cl K μ → Inv Ω' cl K' μ' → Change C K K' μ μ' → P K μ → P K' μ')
    {Ω : Env} {K : MS} {μ : Tags} (hb : Ω.blocs = []) (I : Inv Ω cl K μ) (h : P K μ) (e : Events C X (K.tags μ) k') :
    ∃ Ω' K' μ', Env.blocs Ω' = [] ∧ k' = MS.tags K' μ' ∧ Inv Ω' cl K' μ' ∧ P K' μ' := by
  induction e with
  | refl => exact ⟨Ω, K, μ, hb, rfl, I, h⟩
  | tail _ e ih =>
    obtain ⟨Ω1, K1, μ1, hb1, rfl, I1, h1⟩ := ih
    obtain ⟨Ω2, K2, μ2, hb2, h2, I2, V⟩ := Event.inv hf hX hb1 I1 e
    exact ⟨Ω2, K2, μ2, hb2, h2, I2, hP _ _ _ _ _ _ I1 I2 V h1⟩

theorem by_eq {Ω : Env} {cl : Prop} {K : MS} {μ : Tags} (I : Inv Ω cl K μ) (t : Nat) :
    By (endSet μ) t = fun o => o = t ∨ safe (K.tags μ) o = true := by
  funext o
  refine propext (or_congr Iff.rfl ?_)
  rw [safe_tags' I]
  exact Iff.rfl

/-! ## Theorems -/

/-- C58, blocks. Whatever threads have begun to end or have ended, all the blocks are pairwise disjoint and lie in mapped
memory: those of the client, those in the hands of a call, those in the hands of a queue. -/
theorem C58_blocks_partial (hf : C.reallocFactor ≠ 0) (h : Reach C X k) :
    (k.G.live ++ (k.G.hand.map Prod.snd ++ k.G.queued)).Pairwise PBlock.Disj ∧
      ∀ l ∈ k.G.live ++ (k.G.hand.map Prod.snd ++ k.G.queued), l.ptr ≠ 0 ∧ l.owner < k.chs.length ∧
        ∀ x, l.Byte x → k.w.src.os.used x = true := by
  obtain ⟨Ω, K, μ, _, rfl, I⟩ := h.inv (cl := False) hf False.elim
  have := I.m.inv.disj
  rw [List.append_nil] at this
  have hl : (K.tags μ).chs.length = K.chs.length := tags_len K.ps μ
  rw [hl]
  exact this

/-- C58, steps. A step of a thread does what it should for the client, where a block that is resized may belong to a thread
that has begun to end, or it is undefined and then: the kernel has no memory; or the thread is at its last purge and its chain
was released; or the step frees the last block of a thread that has set its handler, and this block is small. -/
theorem C58_steps_partial (hf : C.reallocFactor ≠ 0) (h : Reach C X k) (t : Nat) :
    (∃ k' o, step C k t = .ok (k', o) ∧ MOut (fun o => o = t ∨ safe k o = true) k k' t o) ∨
    (step C k t = .ub ∧ (¬ StepMem k t ∨ (k.pc t = .purge (.free 0 0) .idle ∧ dead k t = true) ∨
      ∃ i p, FreesIn k t i p ∧ hand k i = true ∧ dead k i = false ∧ Last k i p ∧ ∀ l ∈ k.G.all, l.ptr = p → Small k l)) := by
  obtain ⟨Ω, K, μ, _, rfl, I⟩ := h.inv (cl := False) hf False.elim
  have last : ∀ {i p}, LastSmall K μ i p → hand (K.tags μ) i = true ∧ dead (K.tags μ) i = false ∧ Last (K.tags μ) i p ∧
      ∀ l ∈ (K.tags μ).G.all, l.ptr = p → Small (K.tags μ) l := by
    rintro i p ⟨h1, ⟨l, hl, ho, hp⟩, h3, h4⟩
    refine ⟨(hand_tags I).2 ⟨_, h1⟩, ?_, ⟨⟨l, hl, ho, hp⟩, h3⟩, fun l' hl' hp' => ?_⟩
    · cases hd : dead (K.tags μ) i with
      | false => rfl
      | true => rw [(dead_tags I).1 hd] at h1; cases h1
    · have N := (PInv.nd I.m.inv).all
      obtain rfl := ptr_eq_of_nodup N hl' hl (hp'.trans hp.symm)
      obtain ⟨c, hc⟩ := I.m.inv.chain_some hl
      have hn := h4 c (by rw [← ho]; exact hc)
      obtain ⟨a1, a2⟩ := huge_iff I.m.inv hl hc
      rw [hp] at a1
      refine ⟨by by_contra hge; exact hn (a1 (by omega)), fun hpl z hz => ?_⟩
      have := (a2 hpl z hz).not
      rw [hp] at this
      have := this.1 hn
      omega
  rcases step_ok (C := C) hf I t with ⟨e, F⟩ | ⟨K', μ', o, e, I', M, V⟩
  · right
    refine ⟨e, ?_⟩
    rcases F with h | ⟨h1, h2⟩ | ⟨i, p, r, h1, h2⟩ | ⟨j, p, n, h1, h2⟩
    · exact Or.inl h
    · exact Or.inr (Or.inl ⟨h1, (dead_tags I).2 h2⟩)
    · exact Or.inr (Or.inr ⟨i, p, Or.inl ⟨r, h1⟩, last h2⟩)
    · exact Or.inr (Or.inr ⟨t, p, Or.inr ⟨rfl, j, n, h1⟩, last h2⟩)
  · left
    rw [by_eq I] at M
    exact ⟨_, o, e, M.kept, M.same, M.ret, M.left, M.entered⟩

/-- C58, nobody begins to push to the queue of a thread that has begun to end. -/
theorem C58_push_partial {t i p r : Nat} {o : Option Nat} (hf : C.reallocFactor ≠ 0) (h : Reach C X k)
    (e : step C k t = .ok (k', o)) (h1 : k'.pc t = .push i (.clear p) r) (h2 : ∀ c r, k.pc t ≠ .push i c r) : safe k i = false := by
  obtain ⟨Ω, K, μ, _, rfl, I⟩ := h.inv (cl := False) hf False.elim
  rcases step_ok (C := C) hf I t with ⟨e', _⟩ | ⟨K', μ', o', e', _, _, V⟩
  · rw [e'] at e; cases e
  · rw [e'] at e
    obtain ⟨rfl, rfl⟩ := Prod.mk.inj (Outcome.ok.inj e)
    have h1 : K'.pc t = .push i (.clear p) r := h1
    have h2 : ∀ c r, K.pc t ≠ .push i c r := h2
    have := V.push t i (by
      cases hp : K.pc t with
      | push j c r' =>
        by_cases hj : j = i
        · subst hj; exact absurd hp (h2 c r')
        · simp [projP, hj]
      | _ => rfl) (by rw [h1]; simp [projP])
    cases hs : safe (K.tags μ) i with
    | false => rfl
    | true => exact absurd this ((safe_tags' I).1 hs)

/-- C58, no step of a thread sets or clears a flag or a handler. -/
theorem C58_marks_partial {t : Nat} {o : Option Nat} (hf : C.reallocFactor ≠ 0) (h : Reach C X k) (e : step C k t = .ok (k', o)) (i : Nat) :
    safe k' i = safe k i ∧ hand k' i = hand k i := by
  obtain ⟨Ω, K, μ, _, rfl, I⟩ := h.inv (cl := False) hf False.elim
  rcases step_ok (C := C) hf I t with ⟨e', _⟩ | ⟨K', μ', o', e', I', _, V⟩
  · rw [e'] at e; cases e
  · rw [e'] at e
    obtain ⟨rfl, rfl⟩ := Prod.mk.inj (Outcome.ok.inj e)
    refine ⟨Bool.eq_iff_iff.2 ?_, Bool.eq_iff_iff.2 ?_⟩
    · rw [safe_tags' I, safe_tags' I']
      rcases V.tag i with e | ⟨e1, e2, _⟩
      · rw [e]
      · rw [e1, e2]; simp
    · rw [hand_tags I, hand_tags I']
      rcases V.tag i with e | ⟨e1, e2, _⟩
      · rw [e]
      · rw [e1, e2]; simp

/-- C58, the last purge. If no push to the queue of `t` is in progress when `t`, which has set its flag, goes on to set its
handler, then once its purge is over, and for ever after, no block of `t` is in the hands of a queue. -/
theorem C58_drained_partial {t : Nat} (hf : C.reallocFactor ≠ 0) (h : Reach C X k) (h1 : safe k t = true) (h2 : hand k t = false)
    (h3 : ∀ u c r, k.pc u ≠ .push t c r) (e : Events C X k k') (h4 : hand k' t = true) (h5 : k'.pc t = .idle) :
    ∀ l ∈ k'.G.queued, l.owner ≠ t := by
  obtain ⟨Ω, K, μ, hb, rfl, I⟩ := h.inv (cl := False) hf False.elim
  have hrun := (safe_tags' I).1 h1
  have hne : ∀ d, μ t ≠ .ended d := fun d hd => by
    rw [(hand_tags I).2 ⟨d, hd⟩] at h2; cases h2
  have D : Dry K μ t := by
    refine ⟨hrun, fun u => ?_, fun j c hc => ?_, fun hd => ?_⟩
    · have h3 : ∀ u c r, K.pc u ≠ .push t c r := h3
      cases hp : K.pc u with
      | push j c r =>
        by_cases hj : j = t
        · subst hj; exact absurd hp (h3 u c r)
        · simp [projP, hj]
      | _ => rfl
    · rcases I.pc t hrun with h | ⟨⟨d, hd⟩, _⟩
      · rw [h] at hc; cases hc
      · exact absurd hd (hne d)
    · obtain ⟨d, hd⟩ := hd
      exact absurd hd (hne d)
  obtain ⟨Ω', K', μ', _, rfl, I', D'⟩ := Events.dry hf (cl := False) False.elim hb I D e
  have h5 : K'.pc t = .idle := h5
  exact D'.none ((hand_tags I').1 h4) (by rw [h5]; rfl) (by rw [h5]; simp)

/-- C58, at most once. The handler of a thread is called at most once, and its chain is released exactly when it is; then the
thread had set its flag and its handler, and none of its blocks remains. -/
theorem C58_once_partial (hf : C.reallocFactor ≠ 0) (h : Reach C X k) (i : Nat) :
    calls k i ≤ 1 ∧ (calls k i = 1 ↔ dead k i = true) ∧ (hand k i = true → safe k i = true) ∧
      (dead k i = true → hand k i = true ∧ ∀ l ∈ k.G.all, l.owner ≠ i) := by
  obtain ⟨Ω, K, μ, _, rfl, I⟩ := h.inv (cl := False) hf False.elim
  rw [calls_tags I]
  refine ⟨by split <;> omega, ?_, fun h => ?_, fun h => ?_⟩
  · rw [dead_tags I]
    by_cases hd : μ i = .ended true
    · simp [hd]
    · simp [hd]
  · obtain ⟨d, hd⟩ := (hand_tags I).1 h
    exact (safe_tags' I).2 (by rw [hd]; simp)
  · have hd := (dead_tags I).1 h
    exact ⟨(hand_tags I).2 ⟨_, hd⟩, fun l hl ho => I.alive hl (by rw [ho]; exact hd)⟩

/-- C58, a thread that has begun to end does not come back, and a chain that was released stays so. -/
theorem C58_final_partial (hf : C.reallocFactor ≠ 0) (h : Reach C X k) (e : Events C X k k') (i : Nat) :
    (safe k i = true → safe k' i = true) ∧ (hand k i = true → hand k' i = true) ∧ (dead k i = true → dead k' i = true) := by
  obtain ⟨Ω, K, μ, hb, rfl, I⟩ := h.inv (cl := False) hf False.elim
  obtain ⟨Ω', K', μ', _, rfl, I', h1, h2, h3⟩ := Events.keep
    (fun _ μ' => (μ i ≠ .run → μ' i ≠ .run) ∧ ((∃ d, μ i = .ended d) → ∃ d, μ' i = .ended d) ∧ (μ i = .ended true → μ' i = .ended true))
    (cl := False) hf False.elim (fun _ _ _ _ μ1 μ2 _ _ V ⟨a, b, c⟩ => by
      rcases V.tag i with e | ⟨e1, e2⟩ | ⟨e1, e2⟩ | ⟨e1, e2, _⟩
      · rw [e]; exact ⟨a, b, c⟩
      · rw [e1] at a b c
        rw [e2]
        exact ⟨(fun _ => by simp), (fun h => by obtain ⟨d, hd⟩ := b h; cases hd), (fun h => by cases c h)⟩
      · rw [e1] at a b c
        rw [e2]
        exact ⟨(fun _ => by simp), fun h => ⟨_, rfl⟩, (fun h => by cases c h)⟩
      · rw [e2]
        exact ⟨(fun _ => by simp), fun h => ⟨_, rfl⟩, fun _ => rfl⟩) hb I ⟨id, id, id⟩ e
  rw [safe_tags' I, safe_tags' I', hand_tags I, hand_tags I', dead_tags I, dead_tags I']
  exact ⟨h1, h2, h3⟩

/-- The chain of a thread that has set its handler, with its counter. -/
def Due (i : Nat) (K : MS) (μ : Tags) : Prop :=
  ∃ c, K.chs[i]? = some c ∧ ((μ i = .ended false ∧ c.cnt ≠ 0) ∨ (μ i = .ended true ∧ c.cnt = 0))

theorem Due.next {Ω' : Env} {cl : Prop} {K K' : MS} {μ μ' : Tags} {i : Nat} (I' : Inv Ω' cl K' μ')
    (V : Change C K K' μ μ') (h : Due i K μ) : Due i K' μ' := by
  obtain ⟨c, hc, h⟩ := h
  have hlt := (List.getElem?_eq_some_iff.1 hc).1
  have hlt' : i < K'.chs.length := Nat.lt_of_lt_of_le hlt V.len
  refine ⟨_, List.getElem?_eq_getElem hlt', ?_⟩
  rcases h with ⟨h1, h2⟩ | ⟨h1, h2⟩
  · rcases V.tag i with e | ⟨e1, _⟩ | ⟨e1, _⟩ | ⟨_, e2, _⟩
    · left
      rw [h1] at e
      exact ⟨e, V.cnt i _ _ e hc (List.getElem?_eq_getElem hlt') h2⟩
    · rw [h1] at e1; cases e1
    · rw [h1] at e1; cases e1
    · exact Or.inr ⟨e2, I'.cnt i _ e2 (List.getElem?_eq_getElem hlt')⟩
  · have e2 : μ' i = .ended true := by
      rcases V.tag i with e | ⟨e1, _⟩ | ⟨e1, _⟩ | ⟨_, e2, _⟩
      · rw [e]; exact h1
      · rw [h1] at e1; cases e1
      · rw [h1] at e1; cases e1
      · exact e2
    exact Or.inr ⟨e2, I'.cnt i _ e2 (List.getElem?_eq_getElem hlt')⟩

theorem due_of {cl : Prop} {i : Nat} (hf : C.reallocFactor ≠ 0) (hX : cl → ∀ op, X op → MClean op) (h : Reach C X k)
    (h1 : hand k i = true) (h2 : ∃ l ∈ k.G.all, l.owner = i) (e : Events C X k k') :
    ∃ Ω' K' μ', Env.blocs Ω' = [] ∧ k' = MS.tags K' μ' ∧ Inv Ω' cl K' μ' ∧ Due i K' μ' := by
  obtain ⟨Ω, K, μ, hb, rfl, I⟩ := h.inv hf hX
  refine Events.keep (Due i) hf hX (fun _ _ _ _ _ _ _ I' V D => D.next I' V) hb I ?_ e
  obtain ⟨l, hl, ho⟩ := h2
  obtain ⟨c, hc⟩ := I.m.inv.chain_some hl
  have hpos := (I.m.inv.chain hc).2.2.2 l hl rfl
  rw [ho] at hc
  obtain ⟨d, hd⟩ := (hand_tags I).1 h1
  refine ⟨c, hc, Or.inl ⟨?_, by omega⟩⟩
  cases d with
  | false => exact hd
  | true =>
    have := I.alive hl
    rw [ho] at this
    exact absurd hd this

/-- C58, exactly when the last bloc goes. A thread has set its handler and a block of it remains: at any time afterwards,
whatever the others do, the handler was called once if the chain holds no bloc, and was not called if it holds one. -/
theorem C58_when_partial {i : Nat} (hf : C.reallocFactor ≠ 0) (h : Reach C X k) (h1 : hand k i = true)
    (h2 : ∃ l ∈ k.G.all, l.owner = i) (e : Events C X k k') :
    ∃ c, k'.chs[i]? = some c ∧ c.calls = if c.cnt = 0 then 1 else 0 := by
  obtain ⟨Ω', K', μ', _, rfl, I', c, hc, hd⟩ := due_of (cl := False) hf False.elim h h1 h2 e
  have h0 := (I'.m.inv.chain hc).2.1
  refine ⟨c.tag (μ' i), by rw [mtags_get, hc]; rfl, ?_⟩
  rcases hd with ⟨hd, hz⟩ | ⟨hd, hz⟩
  · rw [hd]
    show c.calls + 0 = if c.cnt = 0 then 1 else 0
    rw [if_neg hz, h0]
  · rw [hd]
    show c.calls + 1 = if c.cnt = 0 then 1 else 0
    rw [if_pos hz, h0]

/-- C58, in terms of blocks: without requests just below the huge limit, the handler was called if and only if no block of the
thread remains. -/
theorem C58_when_blocks_partial {i : Nat} (hf : C.reallocFactor ≠ 0) (h : Reach C MClean k) (h1 : hand k i = true)
    (h2 : ∃ l ∈ k.G.all, l.owner = i) (e : Events C MClean k k') :
    calls k' i = if ∃ l ∈ k'.G.all, l.owner = i then 0 else 1 := by
  obtain ⟨Ω', K', μ', _, rfl, I', c, hc, hd⟩ := due_of (cl := True) hf (fun _ _ h => h) h h1 h2 e
  rw [calls_tags I']
  rcases hd with ⟨hd, hz⟩ | ⟨hd, hz⟩
  · rw [if_neg (by rw [hd]; simp), if_pos]
    by_contra hn
    refine hz (I'.m.inv.chain_empty hc (fun l hl ho => hn ⟨l, ?_, ho⟩))
    rw [List.append_nil] at hl
    exact hl
  · rw [if_pos hd, if_neg]
    rintro ⟨l, hl, ho⟩
    exact I'.alive hl (by rw [ho]; exact hd)

/-- C58, everything goes back. Without requests just below the huge limit, once no block remains, whichever threads have ended:
the source has got back all its blocs, no region is registered, and the chains of all the threads count no bloc. -/
theorem C58_returned_partial (hf : C.reallocFactor ≠ 0) (h : Reach C MClean k) (hl : k.G.all = []) :
    k.w.src.counter = 0 ∧ (∀ x, k.w.regs.ent x = 0) ∧ ∀ c ∈ k.chs, c.cnt = 0 := by
  obtain ⟨Ω, K, μ, hΩ, rfl, I⟩ := h.inv (cl := True) hf (fun _ _ h => h)
  have hl : K.G.all = [] := hl
  have J := I.m.inv
  rw [hl] at J
  have hch : ∀ (t : Nat) (c : Chain), K.chs[t]? = some c → c.cnt = 0 := by
    intro t c hc
    exact J.chain_empty hc (fun l h => by cases h)
  obtain ⟨H, L, P, B, hsh⟩ := J.empty
  refine ⟨by have := B.lin.cnt; rw [hsh] at this; exact this, fun x => ?_, fun c hc => ?_⟩
  · by_contra hk
    obtain ⟨d, hd, _⟩ := B.reg.own x hk
    have hd : d ∈ shapes H ++ Ω.blocs := hd
    rw [hsh, hΩ] at hd
    cases hd
  · obtain ⟨t, ht⟩ := List.mem_iff_getElem?.1 hc
    rw [mtags_get] at ht
    cases e : K.chs[t]? with
    | none => rw [e] at ht; cases ht
    | some d =>
      rw [e] at ht
      rw [← Option.some.inj ht, ← hch t d e]
      cases μ t <;> rfl

/-! ## What does not hold -/

/-- C58 is false of a block that was pushed too late, whatever happened before: a block in the hands of the queue of a thread
that has done its last purge is never freed, and the chain of the thread is never released. -/
theorem C58_refuted_late {t : Nat} {l : PBlock} (hf : C.reallocFactor ≠ 0) (h : Reach C X k) (h1 : hand k t = true)
    (h2 : k.pc t = .idle) (hl : l ∈ k.G.queued) (ho : l.owner = t) (e : Events C X k k') :
    l ∈ k'.G.queued ∧ dead k' t = false ∧ calls k' t = 0 := by
  obtain ⟨Ω, K, μ, hb, rfl, I⟩ := h.inv (cl := False) hf False.elim
  obtain ⟨Ω', K', μ', _, rfl, I', ⟨_, _, hl'⟩⟩ := Events.keep
    (fun K μ => (∃ d, μ t = .ended d) ∧ K.pc t = .idle ∧ l ∈ K.G.queued) (cl := False) hf False.elim
    (fun _ _ K1 K2 μ1 μ2 _ _ V ⟨⟨d, a⟩, b, c⟩ => by
      refine ⟨?_, V.rest t ⟨d, a⟩ b, ?_⟩
      · rcases V.tag t with e | ⟨e1, e2⟩ | ⟨e1, e2⟩ | ⟨e1, e2, _⟩
        · exact ⟨d, by rw [e]; exact a⟩
        · rw [a] at e1; cases e1
        · rw [a] at e1; cases e1
        · exact ⟨_, e2⟩
      · by_contra hn
        obtain ⟨j, nxt, hp⟩ := V.left l c hn
        rw [ho, b] at hp; cases hp) hb I ⟨(hand_tags I).1 h1, h2, hl⟩ e
  have ha := I'.alive (MSpec.queued_all hl')
  rw [ho] at ha
  refine ⟨hl', ?_, ?_⟩
  · cases hd : dead (K'.tags μ') t with
    | false => rfl
    | true => exact absurd ((dead_tags I').1 hd) ha
  · rw [calls_tags I', if_neg ha]

/-- C58 is false of a thread of which no block remains when it sets its handler, whatever happened before: the handler is never
called, so the chain is never released. -/
theorem C58_refuted_empty {i : Nat} (hf : C.reallocFactor ≠ 0) (h : Reach C X k) (h1 : safe k i = true) (h2 : dead k i = false)
    (h3 : ∀ l ∈ k.G.all, l.owner ≠ i) (e : Events C X k k') : dead k' i = false ∧ calls k' i = 0 := by
  obtain ⟨Ω, K, μ, hb, rfl, I⟩ := h.inv (cl := False) hf False.elim
  obtain ⟨Ω', K', μ', _, rfl, I', ⟨_, hd, _⟩⟩ := Events.keep
    (fun K μ => μ i ≠ .run ∧ μ i ≠ .ended true ∧ ∀ l ∈ K.G.all, l.owner ≠ i) (cl := False) hf False.elim
    (fun _ _ K1 K2 μ1 μ2 _ _ V ⟨a, b, c⟩ => by
      have h3 : ∀ l ∈ K2.G.all, l.owner ≠ i := by
        intro l hl ho
        rcases V.own l hl with h | ⟨l0, h0, h1⟩
        · rw [ho] at h; exact a h
        · exact c l0 h0 (h1.trans ho)
      rcases V.tag i with e | ⟨e1, e2⟩ | ⟨e1, e2⟩ | ⟨_, _, l, hl, ho, _⟩
      · rw [e]; exact ⟨a, b, h3⟩
      · rw [e2]; exact ⟨by simp, by simp, h3⟩
      · rw [e2]; exact ⟨by simp, by simp, h3⟩
      · exact absurd ho (c l hl)) hb I
    ⟨(safe_tags' I).1 h1, (fun hd => by rw [(dead_tags I).2 hd] at h2; cases h2), h3⟩ e
  refine ⟨?_, by rw [calls_tags I', if_neg hd]⟩
  cases hx : dead (K'.tags μ') i with
  | false => rfl
  | true => exact absurd ((dead_tags I').1 hx) hd

/-- The free of the last block of a thread that has set its handler, in its chain. -/
theorem last_free {t i p r : Nat} {l : PBlock} (hf : C.reallocFactor ≠ 0) (h : Reach C MClean k) (hpc : k.pc t = .lfree i p r)
    (h1 : hand k i = true) (hl : l ∈ k.G.all) (hp : l.ptr = p) (hlast : ∀ m ∈ k.G.all, m.owner = i → m.ptr = p) :
    ((l.len < 1048576 ∧ (l.plain = true → ∀ z, posixGetSize k.w.mem p = .ok z → calcChunkSize (z + 16) ≤ 1048576)) ∧ step C k t = .ub) ∨
    ((l.plain = true → ∀ z, posixGetSize k.w.mem p = .ok z → 1048576 < calcChunkSize (z + 16)) ∧
      ∃ k', step C k t = .ok (k', some r) ∧ dead k' i = true ∧ calls k' i = 1 ∧ ∀ u, u ≠ t → k'.pc u = k.pc u) := by
  obtain ⟨Ω, K, μ, _, rfl, I⟩ := h.inv (cl := True) hf (fun _ _ h => h)
  have hpc : K.pc t = .lfree i p r := hpc
  have hl : l ∈ K.G.all := hl
  have ok := I.m.th t
  rw [hpc] at ok
  obtain ⟨_, _, _, l', hl', hlp', hlo'⟩ := ok
  obtain rfl := ptr_eq_of_nodup (PInv.nd I.m.inv).all hl (MSpec.hand_all hl') (hp.trans hlp'.symm)
  obtain ⟨c, hc⟩ := I.m.inv.chain_some hl
  obtain ⟨a1, a2⟩ := huge_iff I.m.inv hl hc
  have hpos := (I.m.inv.chain hc).2.2.2 l hl rfl
  rw [hp] at a1 a2
  rw [hlo'] at hc
  rcases I.lfree (C := C) hpc with ⟨e, _, _, _, hn⟩ | ⟨K', μ', o, e, I', M, V⟩
  · left
    have hn := hn c hc
    refine ⟨⟨?_, fun hpl z hz => ?_⟩, e⟩
    · by_contra hge
      exact hn (a1 (by omega))
    · have := (a2 hpl z hz).not.1 hn
      omega
  · right
    have em : mstep C (K.tags μ) t = .ok (K'.tags μ', o) := by
      unfold ConcEnds.step at e
      split at e
      · cases e
      · exact e
    unfold mstep at em
    have hpt : (K.tags μ).pc t = .lfree i p r := hpc
    rw [hpt] at em
    simp only at em
    obtain ⟨u1, _, em⟩ := Outcome.bind_eq_ok em
    obtain ⟨u2, _, em⟩ := Outcome.bind_eq_ok em
    obtain ⟨f1, f2⟩ := Prod.mk.inj (Outcome.ok.inj em)
    have hG : K'.G = (K.G.drop p).toLive r := by
      have : (K'.tags μ').G = (K.G.drop p).toLive r := by rw [← f1]; rfl
      exact this
    have hnone : ∀ m ∈ K'.G.all, m.owner ≠ i := by
      intro m hm ho
      rw [hG] at hm
      obtain ⟨x1, x2⟩ := drop_mem.1 (((K.G.drop p).toLive_all r).mem_iff.1 hm)
      exact x2 (hlast m x1 ho)
    have hlt : i < K'.chs.length := by rw [V.len]; exact (List.getElem?_eq_some_iff.1 hc).1
    have hc' := List.getElem?_eq_getElem hlt
    have hz := I'.m.inv.chain_empty hc' (fun m hm => by
      rw [List.append_nil] at hm
      exact hnone m hm)
    have hend : μ i = .ended false := by
      obtain ⟨d, hd⟩ := (hand_tags I).1 h1
      cases d with
      | false => exact hd
      | true =>
        have := I.alive hl
        rw [hlo'] at this
        exact absurd hd this
    rcases V.tag i with e1 | ⟨_, e2, m, hm, hmo, hh⟩
    · rw [hend] at e1
      exact absurd hz (V.cnt i c _ e1 hc hc' (by omega))
    · have hmp := hlast m hm hmo
      have hh := hh c hc
      rw [hmp] at hh
      exact ⟨fun hpl z hz => (a2 hpl z hz).1 hh, _, by rw [e, ← f2], (dead_tags I').2 e2, by rw [calls_tags I', if_pos e2], V.pc⟩

/-- C58, the last block is huge: its free by another thread calls the handler, once. -/
theorem C58_last_huge_partial {t i p r : Nat} {l : PBlock} (hf : C.reallocFactor ≠ 0) (h : Reach C MClean k) (hpc : k.pc t = .lfree i p r)
    (h1 : hand k i = true) (hl : l ∈ k.G.all) (hp : l.ptr = p) (hlast : ∀ m ∈ k.G.all, m.owner = i → m.ptr = p)
    (hbig : 1048576 ≤ l.len) :
    ∃ k', step C k t = .ok (k', some r) ∧ dead k' i = true ∧ calls k' i = 1 ∧ ∀ u, u ≠ t → k'.pc u = k.pc u := by
  rcases last_free hf h hpc h1 hl hp hlast with ⟨⟨h1, _⟩, _⟩ | ⟨_, h2⟩
  · omega
  · exact h2

/-- C58 is false of the last block when it is not huge, whatever happened before: the chain is used after it has been
released. -/
theorem C58_refuted_locked {t i p r z : Nat} {l : PBlock} (hf : C.reallocFactor ≠ 0) (h : Reach C MClean k) (hpc : k.pc t = .lfree i p r)
    (h1 : hand k i = true) (hl : l ∈ k.G.all) (hp : l.ptr = p) (hlast : ∀ m ∈ k.G.all, m.owner = i → m.ptr = p)
    (hpl : l.plain = true) (hz : posixGetSize k.w.mem p = .ok z) (hs : calcChunkSize (z + 16) ≤ 1048576) : step C k t = .ub := by
  rcases last_free hf h hpc h1 hl hp hlast with ⟨_, h2⟩ | ⟨h2, _⟩
  · exact h2
  · have := h2 hpl z hz
    omega

end

/-! ## Concrete cases -/

/-- The calls that `X` allows, without realloc. -/
def Plainly (X : MCall → Prop) (op : MCall) : Prop := X op ∧ ∀ p b n, op ≠ .realloc p b n

/-- Runs without end of thread. -/
theorem reach_of {C : Config} {X : MCall → Prop} (hf : C.reallocFactor ≠ 0) {k : MS} (h : MReach C (Plainly X) k) :
    Reach C X k ∧ (∀ i, dead k i = false) ∧ (∀ i, safe k i = false) ∧ ∀ i, hand k i = false := by
  have marks : ∀ {k}, MReach C (Plainly X) k → (∀ i, dead k i = false) ∧ (∀ i, safe k i = false) ∧ ∀ i, hand k i = false := by
    intro k h
    obtain ⟨Ω, _, I⟩ := h.inv (cl := False) hf False.elim
    have : ∀ (i : Nat) (c : Chain), k.chs[i]? = some c → c.dead = false ∧ c.threadSafe = false ∧ c.handler = false := by
      intro i c hc
      have P := (I.inv.chain hc).1
      exact ⟨P.dead, P.safe, P.handler⟩
    refine ⟨fun i => ?_, fun i => ?_, fun i => ?_⟩
    · unfold dead
      cases hc : k.chs[i]? with
      | none => rfl
      | some c => exact (this i c hc).1
    · unfold safe
      cases hc : k.chs[i]? with
      | none => rfl
      | some c => exact (this i c hc).2.1
    · unfold hand
      cases hc : k.chs[i]? with
      | none => rfl
      | some c => exact (this i c hc).2.2
  refine ⟨?_, marks h⟩
  induction h with
  | init h1 h2 h3 => exact ⟨_, ⟨_, _, _, h1, h2, h3, rfl⟩, .refl⟩
  | call h ht hpc hv hx ih =>
    refine ih.event (.call ht ((marks h).2.1 _) hpc hv ?_ hx.1)
    rename_i op
    cases op with
    | realloc p b n => exact absurd rfl (hx.2 p b n)
    | _ => trivial
  | step h e ih =>
    rename_i k1 k2 t o
    refine ih.event (.step (t := t) (o := o) ?_)
    unfold ConcEnds.step
    rw [if_neg]
    · exact e
    · rw [List.any_eq_true]
      rintro ⟨x, _, hx⟩
      rw [(marks h).1 x] at hx
      cases hx
  | write h h1 h2 ih => exact ih.event (.write h1 h2)
  | spawn h h1 h2 ih => exact ih.event (.spawn h1 h2)

/-- Two threads, of which the first has set its flag and its handler if `s0` and `h0` say so; the queues are empty. -/
structure Two (k : MS) (m : Mem) (s0 h0 : Bool) : Prop where
  len : k.chs.length = 2
  safe0 : safe k 0 = s0
  hand0 : hand k 0 = h0
  safe1 : safe k 1 = false
  dead : ∀ i, ConcEnds.dead k i = false
  head : k.head = fun _ => 0
  tail : k.tail = fun _ => 0
  mem : k.w.mem = m

section
variable {C : Config} {X : MCall → Prop} {k k' : MS} {m : Mem} {s0 h0 : Bool}

theorem Two.same (h : Two k m s0 h0) (h1 : k'.chs = k.chs) (h2 : k'.head = k.head) (h3 : k'.tail = k.tail) (h4 : k'.w.mem = k.w.mem) :
    Two k' m s0 h0 := by
  refine ⟨by rw [h1]; exact h.len, ?_, ?_, ?_, fun i => ?_, h2.trans h.head, h3.trans h.tail, h4.trans h.mem⟩
  · unfold safe; rw [h1]; exact h.safe0
  · unfold hand; rw [h1]; exact h.hand0
  · unfold safe; rw [h1]; exact h.safe1
  · have := h.dead i
    unfold ConcEnds.dead at this ⊢
    rw [h1]; exact this

theorem Two.step (h : Two k m s0 h0) (t : Nat) : step C k t = mstep C k t := by
  unfold ConcEnds.step
  rw [if_neg]
  rw [List.any_eq_true]
  rintro ⟨x, _, hx⟩
  rw [h.dead x] at hx
  cases hx

theorem modify_any (l : List Chain) (f : Chain → Chain) {q : Chain → Bool} (hq : ∀ c, q (f c) = q c) (i : Nat) :
    ((l.modify 0 f)[i]?).any q = (l[i]?).any q := by
  rw [List.getElem?_modify]
  cases l[i]? with
  | none => rfl
  | some c =>
    show q (if 0 = i then f c else c) = q c
    split
    · exact hq c
    · rfl

/-- The first thread sets its flag. -/
theorem Two.flag (h : Two k m false false) (hp : k.pc 0 = .idle) : Event C X k (setSafe k 0) ∧ Two (setSafe k 0) m true false := by
  refine ⟨.flag (by rw [h.len]; omega) h.safe0 hp, ?_⟩
  refine ⟨by show (k.chs.modify 0 _).length = 2; rw [List.length_modify]; exact h.len, ?_, ?_, ?_, fun i => ?_, h.head, h.tail, h.mem⟩
  · show ((k.chs.modify 0 _)[0]?).any _ = true
    have hl := h.len
    rw [List.getElem?_modify, List.getElem?_eq_getElem (by omega)]
    rfl
  · exact (modify_any k.chs (fun c => { c with threadSafe := true }) (fun _ => rfl) 0).trans h.hand0
  · have h1 := h.safe1
    unfold safe at h1 ⊢
    show ((k.chs.modify 0 _)[1]?).any _ = false
    rw [List.getElem?_modify]
    cases e : k.chs[1]? with
    | none => rfl
    | some c => rw [e] at h1; exact h1
  · exact (modify_any k.chs (fun c => { c with threadSafe := true }) (fun _ => rfl) i).trans (h.dead i)

theorem toHand_none {G : MSpec} {t p : Nat} (h : ∀ l ∈ G.all, l.ptr ≠ p) : G.toHand t p = G ∧ G.toLive p = G := by
  have hf : G.find p = [] := by
    unfold MSpec.find
    rw [List.filter_eq_nil_iff]
    intro l hl
    simp [h l hl]
  have hd : G.drop p = G := by
    obtain ⟨a, b, c⟩ := G
    unfold MSpec.drop
    congr
    · rw [List.filter_eq_self]
      intro l hl
      simp [h l (MSpec.live_all hl)]
    · rw [List.filter_eq_self]
      intro l hl
      simp [h l.2 (MSpec.hand_all (x := l) hl)]
    · rw [List.filter_eq_self]
      intro l hl
      simp [h l (MSpec.queued_all hl)]
  unfold MSpec.toHand MSpec.toLive
  rw [hf, hd]
  exact ⟨rfl, rfl⟩

/-- It sets its handler. -/
theorem Two.handler (h : Two k m true false) (hp : k.pc 0 = .idle) (hG : ∀ l ∈ k.G.all, l.ptr ≠ 0) :
    Event C X k (setHandler k 0) ∧ Two (setHandler k 0) m true true ∧ (setHandler k 0).pc 0 = .purge (.free 0 0) .idle ∧
      (∀ u, u ≠ 0 → (setHandler k 0).pc u = k.pc u) ∧ (setHandler k 0).G = k.G := by
  refine ⟨.handler h.safe0 h.hand0 hp, ?_, rfl, fun u hu => upd_ne hu, (toHand_none hG).1⟩
  refine ⟨by show (k.chs.modify 0 _).length = 2; rw [List.length_modify]; exact h.len, ?_, ?_, ?_, fun i => ?_, h.head, h.tail, h.mem⟩
  · exact (modify_any k.chs (fun c => { c with handler := true }) (fun _ => rfl) 0).trans h.safe0
  · show ((k.chs.modify 0 _)[0]?).any _ = true
    have hl := h.len
    rw [List.getElem?_modify, List.getElem?_eq_getElem (by omega)]
    rfl
  · exact (modify_any k.chs (fun c => { c with handler := true }) (fun _ => rfl) 1).trans h.safe1
  · exact (modify_any k.chs (fun c => { c with handler := true }) (fun _ => rfl) i).trans (h.dead i)

/-- It does its last purge. -/
theorem Two.purge (h : Two k m s0 h0) (hp : k.pc 0 = .purge (.free 0 0) .idle) (hG : ∀ l ∈ k.G.all, l.ptr ≠ 0) :
    ∃ k', Events C X k k' ∧ Two k' m s0 h0 ∧ k'.pc 0 = .idle ∧ (∀ u, u ≠ 0 → k'.pc u = k.pc u) ∧ k'.G = k.G := by
  have e1 := start_purge (C := C) (by rw [h.head]) hp
  rw [← h.step] at e1
  have h1 : Two (k.go 0 (Job.next (.free 0 0))) m s0 h0 := h.same rfl rfl rfl rfl
  have e2 : mstep C (k.go 0 (Job.next (.free 0 0))) 0 = .ok ((k.go 0 (Job.next (.free 0 0))).ret 0 0) := by
    unfold mstep
    rfl
  rw [← h1.step] at e2
  refine ⟨_, .tail (.tail .refl (.step e1)) (.step e2), h.same rfl rfl rfl rfl, rfl, fun u hu => ?_, (toHand_none (t := 0) hG).2⟩
  show upd (upd k.pc 0 _) 0 _ u = _
  rw [upd_ne hu, upd_ne hu]

/-- The second thread calls free for the only block, of the first: it will free it in the chain of the first. -/
theorem Two.free {r n : Nat} (hf : C.reallocFactor ≠ 0) (hr : Reach C X k) (hX : X (.free r)) (h : Two k m true h0) (hp : k.pc 1 = .idle)
    (hG : k.G = ⟨[⟨0, r, n, true⟩], [], []⟩) :
    ∃ k', Events C X k k' ∧ Two k' m true h0 ∧ k'.pc 1 = .lfree 0 r 0 ∧ (∀ u, u ≠ 1 → k'.pc u = k.pc u) ∧
      k'.G = ⟨[], [(1, ⟨0, r, n, true⟩)], []⟩ := by
  have v1 : Event C X k (k.start 1 (.free r)) := .call (by rw [h.len]; omega) h.safe1 hp
    (Or.inr ⟨⟨0, r, n, true⟩, by rw [hG]; simp, rfl⟩) trivial hX
  have h1 : Two (k.start 1 (.free r)) m true h0 := h.same rfl rfl rfl rfl
  have e1 := start_purge (C := C) (k := k.start 1 (.free r)) (t := 1) (j := .free r 0) (by rw [h1.head]) rfl
  rw [← h1.step] at e1
  have E2 : Events C X k _ := .tail (.tail .refl v1) (.step e1)
  obtain ⟨k2, hk2⟩ : ∃ k2, k2 = (k.start 1 (.free r)).go 1 (Job.next (.free r 0)) := ⟨_, rfl⟩
  rw [← hk2] at E2
  have h2 : Two k2 m true h0 := by rw [hk2]; exact h.same rfl rfl rfl rfl
  have p2 : k2.pc 1 = .look r 0 := by rw [hk2]; rfl
  have q2 : ∀ u, u ≠ 1 → k2.pc u = k.pc u := fun u hu => by
    rw [hk2]
    show upd (upd k.pc 1 _) 1 _ u = _
    rw [upd_ne hu, upd_ne hu]
  have hG2 : k2.G = ⟨[], [(1, ⟨0, r, n, true⟩)], []⟩ := by
    rw [hk2]
    show k.G.toHand 1 r = _
    rw [hG]
    simp [MSpec.toHand, MSpec.find, MSpec.drop, MSpec.all]
  clear hk2
  have r2 := events_trans hr E2
  obtain ⟨Ω, K, μ, _, rfl, I⟩ := r2.inv (cl := False) hf False.elim
  have hl : (1, (⟨0, r, n, true⟩ : PBlock)) ∈ K.G.hand := by
    have : K.G = ⟨[], [(1, ⟨0, r, n, true⟩)], []⟩ := hG2
    rw [this]; simp
  obtain ⟨R, c, el, hc, _⟩ := I.m.look hl
  have hlen : K.chs.length = 2 := by rw [← h2.len]; exact (tags_len K.ps μ).symm
  have hcu := List.getElem?_eq_getElem (l := K.chs) (i := 1) (by omega)
  have e3 := look_step (C := C) I (l := ⟨0, r, n, true⟩) (r := 0) p2 hl hc hcu el
  have hc : K.chs[0]? = some c := hc
  have hsafe : (c.tag (μ 0)).threadSafe = true := by
    have := h2.safe0
    unfold safe at this
    rw [mtags_get, hc] at this
    exact this
  rw [if_pos (Or.inl hsafe)] at e3
  refine ⟨_, .tail E2 (.step e3), h2.same rfl rfl rfl rfl, rfl, fun u hu => ?_, hG2⟩
  show upd K.pc 1 _ u = _
  rw [upd_ne hu]
  exact q2 u hu

/-- The first thread has a block of `n` bytes. -/
theorem start_two (hf : C.reallocFactor ≠ 0) {n : Nat} (hr : reqSize 0 n = n) (hs : PSize n) (hn : n ≤ 1073741824)
    {X : MCall → Prop} (hx : X (.malloc 0 n)) :
    ∃ k r z, Reach C X k ∧ Two k k.w.mem false false ∧ (∀ u, k.pc u = .idle) ∧ r ≠ 0 ∧ k.G = ⟨[⟨0, r, n, true⟩], [], []⟩ ∧
      posixGetSize k.w.mem r = .ok z ∧
      ((calcChunkSize n ≤ 1048576 ∧ z + 16 < cutSize n + 32) ∨ (1048576 < calcChunkSize n ∧ z + 16 = blocSize n - 48)) := by
  obtain ⟨k, r, h, hl, hh, ht, hp, hr0, g1, g2, g3, z, hz, hk⟩ := msample_any hf (X := Plainly X) hr hs hn
    ⟨hx, by simp⟩
  obtain ⟨h1, h2, h3, h4⟩ := reach_of hf h
  exact ⟨k, r, z, h1, ⟨hl, h3 0, h4 0, h3 1, h2, hh, ht, rfl⟩, hp, hr0, by rw [← g1, ← g2, ← g3], hz, hk⟩

end

theorem small_clean : MClean (.malloc 0 100) := by
  show CleanSize (reqSize 0 100)
  unfold CleanSize
  decide

theorem start_small {X : MCall → Prop} (hx : X (.malloc 0 100)) : ∃ k r z, Reach Config.default X k ∧ Two k k.w.mem false false ∧ (∀ u, k.pc u = .idle) ∧ r ≠ 0 ∧
    k.G = ⟨[⟨0, r, 100, true⟩], [], []⟩ ∧ posixGetSize k.w.mem r = .ok z ∧ calcChunkSize (z + 16) ≤ 1048576 := by
  obtain ⟨k, r, z, h1, h2, h3, h4, h5, h6, hk⟩ := start_two (C := Config.default) (by decide) (n := 100) (by decide)
    (by unfold PSize; omega) (by omega) hx
  have hc : calcChunkSize 100 = 116 := by rw [calc_eq (by omega)]; omega
  have hz2 : z + 16 < 200 := by unfold cutSize at hk; omega
  exact ⟨k, r, z, h1, h2, h3, h4, h5, h6, by rw [calc_eq (by omega)]; omega⟩

/-- C58 is false: a thread allocates 100 bytes and ends; another thread frees the block. Its chain is used after the handler
has released it. Hypotheses of `C58_refuted_locked`, `C58_when_partial`, `C58_when_blocks_partial`. -/
theorem C58_refuted : ∃ C k r, Reach C MClean k ∧ hand k 0 = true ∧ k.pc 0 = .idle ∧ k.pc 1 = .lfree 0 r 0 ∧
    k.G = ⟨[], [(1, ⟨0, r, 100, true⟩)], []⟩ ∧ step C k 1 = .ub := by
  obtain ⟨k, r, z, hr, h, hp, hr0, hG, hz, hs⟩ := start_small (X := MClean) small_clean
  obtain ⟨v1, h1⟩ := h.flag (C := Config.default) (X := MClean) (hp 0)
  have hnz : ∀ l ∈ (setSafe k 0).G.all, l.ptr ≠ 0 := by
    intro l hl
    have hl : l ∈ k.G.all := hl
    rw [hG] at hl
    simp [MSpec.all] at hl
    rw [hl]; exact hr0
  obtain ⟨v2, h2, p2, q2, g2⟩ := h1.handler (C := Config.default) (X := MClean) (hp 0) hnz
  obtain ⟨k3, E3, h3, p3, q3, g3⟩ := h2.purge (C := Config.default) (X := MClean) p2 (by rw [g2]; exact hnz)
  have r3 := events_trans ((hr.event v1).event v2) E3
  obtain ⟨k4, E4, h4, p4, q4, g4⟩ := h3.free (by decide) r3 (r := r) (n := 100) trivial
    (by rw [q3 1 (by omega), q2 1 (by omega)]; exact hp 1) (by rw [g3, g2]; exact hG)
  have r4 := events_trans r3 E4
  refine ⟨_, k4, r, r4, h4.hand0, by rw [q4 0 (by omega)]; exact p3, p4, g4, ?_⟩
  exact C58_refuted_locked (by decide) r4 p4 h4.hand0 (l := ⟨0, r, 100, true⟩) (by rw [g4]; simp [MSpec.all]) rfl
    (fun m hm _ => by rw [g4] at hm; simp [MSpec.all] at hm; rw [hm]) rfl (by rw [h4.mem]; exact hz) hs

/-- C58 is false of the thread that ends: it has a block of 1500000 bytes and sets its handler; before it comes to its last
purge, another thread frees the block, which releases its chain. Hypotheses of `C58_last_huge_partial`. -/
theorem C58_refuted_exit : ∃ C k r k', Reach C MClean k ∧ hand k 0 = true ∧ k.pc 1 = .lfree 0 r 0 ∧
    k.G = ⟨[], [(1, ⟨0, r, 1500000, true⟩)], []⟩ ∧ step C k 1 = .ok (k', some 0) ∧ calls k' 0 = 1 ∧
    k'.pc 0 = .purge (.free 0 0) .idle ∧ step C k' 0 = .ub := by
  obtain ⟨k, r, z, hr, h, hp, hr0, hG, hz, hs⟩ := start_two (C := Config.default) (by decide) (n := 1500000) (by decide)
    (by unfold PSize; omega) (by omega) (X := MClean) (show CleanSize (reqSize 0 1500000) by unfold reqSize CleanSize; decide)
  obtain ⟨v1, h1⟩ := h.flag (C := Config.default) (X := MClean) (hp 0)
  have hnz : ∀ l ∈ (setSafe k 0).G.all, l.ptr ≠ 0 := by
    intro l hl
    have hl : l ∈ k.G.all := hl
    rw [hG] at hl
    simp [MSpec.all] at hl
    rw [hl]; exact hr0
  obtain ⟨v2, h2, p2, q2, g2⟩ := h1.handler (C := Config.default) (X := MClean) (hp 0) hnz
  have r2 := (hr.event v1).event v2
  obtain ⟨k4, E4, h4, p4, q4, g4⟩ := h2.free (by decide) r2 (r := r) (n := 1500000) trivial
    (by rw [q2 1 (by omega)]; exact hp 1) (by rw [g2]; exact hG)
  have r4 := events_trans r2 E4
  obtain ⟨k5, e5, d5, c5, q5⟩ := C58_last_huge_partial (by decide) r4 p4 h4.hand0 (l := ⟨0, r, 1500000, true⟩)
    (by rw [g4]; simp [MSpec.all]) rfl (fun m hm _ => by rw [g4] at hm; simp [MSpec.all] at hm; rw [hm])
    (show 1048576 ≤ 1500000 by omega)
  have p5 : k5.pc 0 = .purge (.free 0 0) .idle := by rw [q5 0 (by omega), q4 0 (by omega)]; exact p2
  refine ⟨_, k4, r, k5, r4, h4.hand0, p4, g4, e5, c5, p5, ?_⟩
  unfold ConcEnds.step used
  rw [p5]
  simp [d5]

/-- C58 is false of a block that another thread is freeing when its thread ends: it has found that the flag is not set, and it
pushes the block to the queue after the last purge. The block is never freed and the chain is never released. Hypotheses of
`C58_refuted_late`. -/
theorem C58_refuted_lost : ∃ C k l, Reach C MClean k ∧ hand k 0 = true ∧ k.pc 0 = .idle ∧ l ∈ k.G.queued ∧ l.owner = 0 ∧
    k.pc 1 = .push 0 (.clear l.ptr) 0 ∧ ∀ k', Events C MClean k k' → l ∈ k'.G.queued ∧ dead k' 0 = false ∧ calls k' 0 = 0 := by
  obtain ⟨k, r, h, hl, hh, ht, hp, p1, hr0, hG⟩ := msample_clear (C := Config.default) (by decide) (X := Plainly MClean)
    ⟨by show CleanSize 100; unfold CleanSize; omega, by simp⟩ (fun p => ⟨trivial, by simp⟩)
  obtain ⟨hr, h2, h3, h4⟩ := reach_of (by decide) h
  have h : Two k k.w.mem false false := ⟨hl, h3 0, h4 0, h3 1, h2, hh, ht, rfl⟩
  obtain ⟨v1, h1⟩ := h.flag (C := Config.default) (X := MClean) (hp 0 (by omega))
  have hnz : ∀ l ∈ (setSafe k 0).G.all, l.ptr ≠ 0 := by
    intro l hl
    have hl : l ∈ k.G.all := hl
    rw [hG] at hl
    simp [MSpec.all] at hl
    rw [hl]; exact hr0
  obtain ⟨v2, h2, p2, q2, g2⟩ := h1.handler (C := Config.default) (X := MClean) (hp 0 (by omega)) hnz
  obtain ⟨k3, E3, h3, p3, q3, g3⟩ := h2.purge (C := Config.default) (X := MClean) p2 (by rw [g2]; exact hnz)
  have r3 := events_trans ((hr.event v1).event v2) E3
  have g3 : k3.G = ⟨[], [], [⟨0, r, 100, true⟩]⟩ := by rw [g3, g2]; exact hG
  have hq : (⟨0, r, 100, true⟩ : PBlock) ∈ k3.G.queued := by rw [g3]; simp
  exact ⟨_, k3, ⟨0, r, 100, true⟩, r3, h3.hand0, p3, hq, rfl, by rw [q3 1 (by omega), q2 1 (by omega)]; exact p1,
    fun k' e => C58_refuted_late (by decide) r3 h3.hand0 p3 hq rfl e⟩

/-- C58 is false of a thread whose last block is freed between its two first steps: its handler is never called. Hypotheses of
`C58_refuted_empty`. -/
theorem C58_refuted_window : ∃ C k r k' k'', Reach C MClean k ∧ safe k 0 = true ∧ k.G = ⟨[], [(1, ⟨0, r, 100, true⟩)], []⟩ ∧
    step C k 1 = .ok (k', some 0) ∧ Event C MClean k' k'' ∧ hand k'' 0 = true ∧ k''.G = ⟨[], [], []⟩ ∧
    ∀ k3, Events C MClean k'' k3 → dead k3 0 = false ∧ calls k3 0 = 0 := by
  obtain ⟨k, r, z, hr, h, hp, hr0, hG, hz, hs⟩ := start_small (X := MClean) small_clean
  obtain ⟨v1, h1⟩ := h.flag (C := Config.default) (X := MClean) (hp 0)
  have r1 := hr.event v1
  obtain ⟨k4, E4, h4, p4, q4, g4⟩ := h1.free (by decide) r1 (r := r) (n := 100) trivial (hp 1) hG
  have r4 := events_trans r1 E4
  have hp0 : k4.pc 0 = .idle := by rw [q4 0 (by omega)]; exact hp 0
  rcases C58_steps_partial (C := Config.default) (by decide) r4 1 with ⟨k5, o, e5, _⟩ | ⟨_, hu⟩
  · have e5' := e5
    rw [h4.step] at e5'
    have S := mstep_shape e5'
    unfold mstep at e5'
    rw [p4] at e5'
    simp only at e5'
    obtain ⟨u1, l1, e5'⟩ := Outcome.bind_eq_ok e5'
    obtain ⟨u2, l2, e5'⟩ := Outcome.bind_eq_ok e5'
    obtain ⟨f1, f2⟩ := Prod.mk.inj (Outcome.ok.inj e5')
    have g5 : k5.G = ⟨[], [], []⟩ := by
      rw [← f1]
      show (k4.G.drop r).toLive 0 = _
      rw [g4]
      simp [MSpec.drop, MSpec.toLive, MSpec.find, MSpec.all]
    have r5 := r4.event (.step e5)
    have p5 : k5.pc 0 = .idle := by rw [S.pc 0 (by omega)]; exact hp0
    have s5 : safe k5 0 = true := (C58_final_partial (by decide) r4 (.tail .refl (.step e5)) 0).1 h4.safe0
    have n5 : hand k5 0 = false := by
      rw [(C58_marks_partial (by decide) r4 e5 0).2]
      exact h4.hand0
    have d5 : dead k5 0 = false := by
      cases hx : dead k5 0 with
      | false => rfl
      | true =>
        have := ((C58_once_partial (by decide) r5 0).2.2.2 hx).1
        rw [n5] at this
        cases this
    have v6 : Event Config.default MClean k5 (setHandler k5 0) := .handler s5 n5 p5
    have g6 : (setHandler k5 0).G = ⟨[], [], []⟩ := by
      show k5.G.toHand 0 0 = _
      rw [g5]
      rfl
    have h6 : hand (setHandler k5 0) 0 = true := by
      have hl : 0 < k5.chs.length := by
        rw [← f1]
        show 0 < (k4.chs.set 0 _).length
        rw [List.length_set, h4.len]
        omega
      show ((k5.chs.modify 0 _)[0]?).any _ = true
      rw [List.getElem?_modify, List.getElem?_eq_getElem hl]
      rfl
    have r6 := r5.event v6
    have s6 := (C58_once_partial (by decide) r6 0).2.2.1 h6
    have d6 : dead (setHandler k5 0) 0 = false :=
      (modify_any k5.chs (fun c => { c with handler := true }) (fun _ => rfl) 0).trans d5
    exact ⟨_, k4, r, k5, setHandler k5 0, r4, h4.safe0, g4, by rw [e5, ← f2], v6, h6, g6,
      fun k3 e => C58_refuted_empty (by decide) r6 s6 d6 (by rw [g6]; intro l hl; cases hl) e⟩
  · rcases hu with hu | ⟨hu, _⟩ | ⟨i, p, hu, hh, _⟩
    · refine absurd ?_ hu
      unfold StepMem; rw [p4]; trivial
    · rw [p4] at hu; cases hu
    · rcases hu with ⟨r', hu⟩ | ⟨_, _, _, hu⟩
      · rw [p4] at hu
        injection hu with hu _ _
        rw [← hu, h4.hand0] at hh
        cases hh
      · rw [p4] at hu; cases hu

/-- Hypotheses of `C58_drained_partial`, and of `C58_blocks_partial`, `C58_steps_partial`, `C58_marks_partial`, `C58_once_partial` and
`C58_final_partial`: a thread with a block ends. -/
example : ∃ C k k' r, Reach C MClean k ∧ k.G.live = [⟨0, r, 100, true⟩] ∧ safe k 0 = true ∧ hand k 0 = false ∧
    (∀ u c r, k.pc u ≠ .push 0 c r) ∧ Events C MClean k k' ∧ hand k' 0 = true ∧ k'.pc 0 = .idle := by
  obtain ⟨k, r, z, hr, h, hp, hr0, hG, hz, hs⟩ := start_small (X := MClean) small_clean
  obtain ⟨v1, h1⟩ := h.flag (C := Config.default) (X := MClean) (hp 0)
  have hnz : ∀ l ∈ (setSafe k 0).G.all, l.ptr ≠ 0 := by
    intro l hl
    have hl : l ∈ k.G.all := hl
    rw [hG] at hl
    simp [MSpec.all] at hl
    rw [hl]; exact hr0
  obtain ⟨v2, h2, p2, q2, g2⟩ := h1.handler (C := Config.default) (X := MClean) (hp 0) hnz
  obtain ⟨k3, E3, h3, p3, q3, g3⟩ := h2.purge (C := Config.default) (X := MClean) p2 (by rw [g2]; exact hnz)
  refine ⟨_, setSafe k 0, k3, r, hr.event v1, ?_, h1.safe0, h1.hand0, fun u c r' hu => ?_, ?_, h3.hand0, p3⟩
  · show k.G.live = _
    rw [hG]
  · have : k.pc u = .push 0 c r' := hu
    rw [hp u] at this
    cases this
  · have : ∀ {a b c : MS}, Events Config.default MClean a b → Events Config.default MClean b c → Events Config.default MClean a c := by
      intro a b c e1 e2
      induction e2 with
      | refl => exact e1
      | tail _ e ih => exact .tail ih e
    exact this (.tail .refl v2) E3

/-- Hypotheses of `C58_push_partial`: the second thread finds that the block belongs to the first, which runs. -/
example : ∃ C k k' o p r, Reach C MClean k ∧ step C k 1 = .ok (k', o) ∧ k'.pc 1 = .push 0 (.clear p) r ∧ ∀ c r, k.pc 1 ≠ .push 0 c r := by
  obtain ⟨k, r, h, hl, hh, ht, hp, hr, g1, g2, g3⟩ := msample_block (C := Config.default) (by decide) (X := Plainly MClean)
    ⟨by show CleanSize 100; unfold CleanSize; omega, by simp⟩
  have hG : k.G = ⟨[⟨0, r, 100, true⟩], [], []⟩ := by rw [← g1, ← g2, ← g3]
  have r1 := h.call (t := 1) (op := .free r) (by omega) (hp 1) (Or.inr ⟨⟨0, r, 100, true⟩, by rw [g1]; simp, rfl⟩) ⟨trivial, by simp⟩
  have e1 := start_purge (C := Config.default) (k := k.start 1 (.free r)) (t := 1) (j := .free r 0) (by
    show k.head 1 = 0
    rw [hh]) rfl
  have r2 := r1.step e1
  obtain ⟨k2, hk2⟩ : ∃ k2, k2 = (k.start 1 (.free r)).go 1 (Job.next (.free r 0)) := ⟨_, rfl⟩
  rw [← hk2] at r2
  have p2 : k2.pc 1 = .look r 0 := by rw [hk2]; rfl
  have hG2 : k2.G = ⟨[], [(1, ⟨0, r, 100, true⟩)], []⟩ := by
    rw [hk2]
    show k.G.toHand 1 r = _
    rw [hG]
    simp [MSpec.toHand, MSpec.find, MSpec.drop, MSpec.all]
  obtain ⟨Ω, _, I2⟩ := r2.inv (cl := False) (by decide) False.elim
  obtain ⟨R, _, e3⟩ := I2.look_eq (C := Config.default) (l := ⟨0, r, 100, true⟩) p2 (by rw [hG2]; simp)
  rw [if_neg (by simp)] at e3
  obtain ⟨h1, h2, _⟩ := reach_of (by decide) r2
  have hs : step Config.default k2 1 = mstep Config.default k2 1 := by
    unfold ConcEnds.step
    rw [if_neg]
    rw [List.any_eq_true]
    rintro ⟨x, _, hx⟩
    rw [h2 x] at hx
    cases hx
  rw [← hs] at e3
  exact ⟨_, k2, _, none, r, 0, h1, e3, rfl, (fun c r' hc => by rw [p2] at hc; cases hc)⟩

/-- Hypotheses of `C58_returned_partial`: a thread has ended. -/
example : ∃ C k, Reach C MClean k ∧ k.G.all = [] ∧ hand k 0 = true := by
  obtain ⟨C, k, r, k', k'', h, _, _, e, v, h6, g6, _⟩ := C58_refuted_window
  exact ⟨C, k'', (h.event (.step e)).event v, by rw [g6]; rfl, h6⟩

end MpcAlloc.ConcEnds
