import Verif.ConcEndsStep
import Verif.PropsQueue

/-
The process in which threads end while the others run: what holds in all the reachable states.
-/

namespace MpcAlloc

open Queue (CPC PPC upd upd_same upd_ne InFlight)

namespace ConcEnds

section
variable {Ω : Env} {cl : Prop} {C : Config} {X : MCall → Prop} {k k' K : MS} {μ : Tags}

theorem mstep_owner {t : Nat} {o : Option Nat} (e : mstep C k t = .ok (k', o)) :
    ∀ l ∈ k'.G.all, (∃ l0 ∈ k.G.all, l0.owner = l.owner) ∨ (l.owner = t ∧ ∃ b n a, k.pc t = .alloc b n a) ∨
      ∃ i p b n, k.pc t = .rlocal i p b n ∧ l.owner = i := by
  have ret : ∀ {k1 : MS} {r : Nat}, (∀ l ∈ k1.G.all, ∃ l0 ∈ k.G.all, l0.owner = l.owner) → ∀ l ∈ ((k1.ret t r).1).G.all,
      (∃ l0 ∈ k.G.all, l0.owner = l.owner) := by
    intro k1 r h l hl
    exact h l (((k1.G.toLive_all r).mem_iff).1 hl)
  have drp : ∀ p, ∀ l ∈ (k.G.drop p).all, ∃ l0 ∈ k.G.all, l0.owner = l.owner := fun p l hl => ⟨l, (drop_mem.1 hl).1, rfl⟩
  have same : ∀ l ∈ k.G.all, ∃ l0 ∈ k.G.all, l0.owner = l.owner := fun l hl => ⟨l, hl, rfl⟩
  have add : ∀ {G : MSpec} {o r n : Nat} {pl : Bool}, ∀ l ∈ (G.add t o r n pl).all, l ∈ G.all ∨ l.owner = o := by
    intro G o r n pl l hl
    by_cases hr : r = 0
    · left; unfold MSpec.add at hl; rw [if_pos hr] at hl; exact hl
    · rcases List.mem_cons.1 (((G.add_all t o n pl hr).mem_iff).1 hl) with h | h
      · right; rw [h]
      · exact Or.inl h
  unfold mstep at e
  cases hpc : k.pc t with
  | idle =>
    rw [hpc] at e
    obtain ⟨rfl, rfl⟩ := Prod.mk.inj (Outcome.ok.inj e)
    exact fun l hl => Or.inl (same l hl)
  | purge j c =>
    rw [hpc] at e
    obtain ⟨k1, e1, e⟩ := Outcome.bind_eq_ok e
    obtain ⟨rfl, rfl⟩ := Prod.mk.inj (Outcome.ok.inj e)
    intro l hl
    left
    by_cases h : ∃ cur nxt, c = .dfree cur nxt
    · obtain ⟨cur, nxt, rfl⟩ := h
      unfold purgeStep at e1
      simp only at e1
      obtain ⟨u1, _, e1⟩ := Outcome.bind_eq_ok e1
      obtain ⟨u2, _, e1⟩ := Outcome.bind_eq_ok e1
      rw [← Outcome.ok.inj e1] at hl
      exact drp _ l hl
    · rw [(purge_same (fun cur nxt h' => h ⟨cur, nxt, h'⟩) hpc e1).2.1] at hl
      exact same l hl
  | alloc b n a =>
    rw [hpc] at e
    simp only at e
    obtain ⟨u1, _, e⟩ := Outcome.bind_eq_ok e
    obtain ⟨⟨u2, r⟩, _, e⟩ := Outcome.bind_eq_ok e
    simp only at e
    intro l hl
    have key : l ∈ (k.G.add t t r n (decide (b ≤ 1))).all := by
      cases a with
      | ret =>
        obtain ⟨rfl, rfl⟩ := Prod.mk.inj (Outcome.ok.inj e)
        exact ((MSpec.toLive_all _ r).mem_iff).1 hl
      | zero => obtain ⟨rfl, rfl⟩ := Prod.mk.inj (Outcome.ok.inj e); exact hl
      | move p => obtain ⟨rfl, rfl⟩ := Prod.mk.inj (Outcome.ok.inj e); exact hl
    exact (add l key).imp (fun h => ⟨l, h, rfl⟩) (fun h => Or.inl ⟨h, b, n, a, rfl⟩)
  | zero r n =>
    rw [hpc] at e
    simp only at e
    obtain ⟨m, _, e⟩ := Outcome.bind_eq_ok e
    obtain ⟨rfl, rfl⟩ := Prod.mk.inj (Outcome.ok.inj e)
    exact fun l hl => Or.inl (ret (k1 := k.setMem m) same l hl)
  | copy r p n =>
    rw [hpc] at e
    simp only at e
    obtain ⟨m, _, e⟩ := Outcome.bind_eq_ok e
    obtain ⟨rfl, rfl⟩ := Prod.mk.inj (Outcome.ok.inj e)
    exact fun l hl => Or.inl (same l hl)
  | look p r =>
    rw [hpc] at e
    simp only at e
    intro l hl
    left
    split at e
    · obtain ⟨rfl, rfl⟩ := Prod.mk.inj (Outcome.ok.inj e)
      exact ret same l hl
    · obtain ⟨u1, _, e⟩ := Outcome.bind_eq_ok e
      obtain ⟨⟨k1, x⟩, e1, e⟩ := Outcome.bind_eq_ok e
      have hG : k1.G = k.G := by
        unfold MS.look at e1
        obtain ⟨⟨R, b⟩, _, e1⟩ := Outcome.bind_eq_ok e1
        simp only at e1
        split at e1
        · rw [← (Prod.mk.inj (Outcome.ok.inj e1)).1]
        · split at e1
          · cases e1
          · obtain ⟨i, _, e1⟩ := Outcome.bind_eq_ok e1
            rw [← (Prod.mk.inj (Outcome.ok.inj e1)).1]
      have same1 : ∀ l ∈ k1.G.all, ∃ l0 ∈ k.G.all, l0.owner = l.owner := fun l hl => by rw [hG] at hl; exact same l hl
      simp only at e
      cases x with
      | none =>
        simp only at e
        split at e
        · cases e
        · obtain ⟨rfl, rfl⟩ := Prod.mk.inj (Outcome.ok.inj e)
          exact ret same1 l hl
      | some y =>
        obtain ⟨a, i⟩ := y
        simp only at e
        obtain ⟨v, _, e⟩ := Outcome.bind_eq_ok e
        split at e
        · obtain ⟨rfl, rfl⟩ := Prod.mk.inj (Outcome.ok.inj e)
          exact same1 l hl
        · obtain ⟨rfl, rfl⟩ := Prod.mk.inj (Outcome.ok.inj e)
          have hl : l ∈ (k1.G.toQueue p).all := hl
          obtain ⟨l0, h0, rfl⟩ := List.mem_map.1 (((k1.G.toQueue_all p).mem_iff).1 hl)
          obtain ⟨l1, h1, h2⟩ := same1 l0 h0
          refine ⟨l1, h1, h2.trans ?_⟩
          split <;> rfl
  | lfree i p r =>
    rw [hpc] at e
    simp only at e
    obtain ⟨u1, _, e⟩ := Outcome.bind_eq_ok e
    obtain ⟨u2, _, e⟩ := Outcome.bind_eq_ok e
    obtain ⟨rfl, rfl⟩ := Prod.mk.inj (Outcome.ok.inj e)
    exact fun l hl => Or.inl (ret (k1 := { k.setPs (k.ps.put i u2) with G := k.G.drop p }) (drp p) l hl)
  | push i c r =>
    rw [hpc] at e
    simp only at e
    intro l hl
    left
    unfold pushStep at e
    cases c with
    | idle =>
      obtain ⟨rfl, rfl⟩ := Prod.mk.inj (Outcome.ok.inj e)
      exact ret same l hl
    | clear x =>
      obtain ⟨v, _, e⟩ := Outcome.bind_eq_ok e
      split at e
      · cases e
      · obtain ⟨rfl, rfl⟩ := Prod.mk.inj (Outcome.ok.inj e)
        exact same l hl
    | swap x =>
      obtain ⟨rfl, rfl⟩ := Prod.mk.inj (Outcome.ok.inj e)
      exact same l hl
    | link x p =>
      simp only at e
      split at e
      · obtain ⟨rfl, rfl⟩ := Prod.mk.inj (Outcome.ok.inj e)
        exact ret (k1 := { k with head := upd k.head i x }) same l hl
      · obtain ⟨rfl, rfl⟩ := Prod.mk.inj (Outcome.ok.inj e)
        exact ret (k1 := k.setMem (writeLE k.w.mem p 8 x)) same l hl
  | rlook p b n =>
    rw [hpc] at e
    simp only at e
    intro l hl
    left
    obtain ⟨u1, _, e⟩ := Outcome.bind_eq_ok e
    obtain ⟨⟨k1, x⟩, e1, e⟩ := Outcome.bind_eq_ok e
    have hG : k1.G = k.G := by
      unfold MS.look at e1
      obtain ⟨⟨R, b⟩, _, e1⟩ := Outcome.bind_eq_ok e1
      simp only at e1
      split at e1
      · rw [← (Prod.mk.inj (Outcome.ok.inj e1)).1]
      · split at e1
        · cases e1
        · obtain ⟨i, _, e1⟩ := Outcome.bind_eq_ok e1
          rw [← (Prod.mk.inj (Outcome.ok.inj e1)).1]
    simp only at e
    cases x with
    | none => cases e
    | some y =>
      obtain ⟨a, i⟩ := y
      simp only at e
      obtain ⟨v, _, e⟩ := Outcome.bind_eq_ok e
      refine same l ?_
      rw [← hG]
      split at e
      · obtain ⟨rfl, rfl⟩ := Prod.mk.inj (Outcome.ok.inj e)
        exact hl
      · obtain ⟨rfl, rfl⟩ := Prod.mk.inj (Outcome.ok.inj e)
        exact hl
  | rlocal i p b n =>
    rw [hpc] at e
    simp only at e
    obtain ⟨u1, _, e⟩ := Outcome.bind_eq_ok e
    obtain ⟨⟨u2, r⟩, _, e⟩ := Outcome.bind_eq_ok e
    obtain ⟨rfl, rfl⟩ := Prod.mk.inj (Outcome.ok.inj e)
    intro l hl
    have hl : l ∈ (if r = p then k.G.resize p n else (k.G.drop p).add t i r n (decide (b ≤ 1))).all :=
      ((MSpec.toLive_all _ r).mem_iff).1 hl
    split at hl
    · rw [k.G.resize_all] at hl
      obtain ⟨l0, h0, rfl⟩ := List.mem_map.1 hl
      refine Or.inl ⟨l0, h0, ?_⟩
      unfold PBlock.relen
      split <;> rfl
    · exact (add l hl).imp (fun h => drp p l h) (fun h => Or.inr ⟨i, p, b, n, rfl, h⟩)

/-- The tail of a queue to which nobody pushes. -/
theorem mstep_tail {t i : Nat} {o : Option Nat} (e : mstep C k t = .ok (k', o)) (h : projP i (k.pc t) = .idle) :
    k'.tail i = k.tail i ∨ (k'.tail i = 0 ∧ i = t) := by
  unfold mstep at e
  cases hpc : k.pc t with
  | idle =>
    rw [hpc] at e
    obtain ⟨rfl, rfl⟩ := Prod.mk.inj (Outcome.ok.inj e)
    exact Or.inl rfl
  | purge j c =>
    rw [hpc] at e
    obtain ⟨k1, e1, e⟩ := Outcome.bind_eq_ok e
    obtain ⟨rfl, rfl⟩ := Prod.mk.inj (Outcome.ok.inj e)
    unfold purgeStep at e1
    cases c with
    | idle =>
      have e1 := Outcome.ok.inj e1
      split at e1 <;> (rw [← e1]; exact Or.inl rfl)
    | load => rw [← Outcome.ok.inj e1]; exact Or.inl rfl
    | clearHead x => rw [← Outcome.ok.inj e1]; exact Or.inl rfl
    | swapTail x =>
      rw [← Outcome.ok.inj e1]
      by_cases hi : i = t
      · right; subst hi; exact ⟨upd_same _ _ _, rfl⟩
      · left; exact upd_ne hi
    | walk x tl cur =>
      simp only at e1
      split at e1
      · rw [← Outcome.ok.inj e1]; exact Or.inl rfl
      · split at e1
        · cases e1
        · have e1 := Outcome.ok.inj e1
          split at e1 <;> (rw [← e1]; exact Or.inl rfl)
    | adv x tl cur =>
      simp only at e1
      split at e1
      · cases e1
      · rw [← Outcome.ok.inj e1]; exact Or.inl rfl
    | dread cur =>
      have e1 := Outcome.ok.inj e1
      split at e1 <;> (rw [← e1]; exact Or.inl rfl)
    | dfree cur nxt =>
      simp only at e1
      obtain ⟨u1, _, e1⟩ := Outcome.bind_eq_ok e1
      obtain ⟨u2, _, e1⟩ := Outcome.bind_eq_ok e1
      rw [← Outcome.ok.inj e1]; exact Or.inl rfl
  | alloc b n a =>
    rw [hpc] at e
    simp only at e
    obtain ⟨u1, _, e⟩ := Outcome.bind_eq_ok e
    obtain ⟨⟨u2, r⟩, _, e⟩ := Outcome.bind_eq_ok e
    simp only at e
    cases a <;> (obtain ⟨rfl, rfl⟩ := Prod.mk.inj (Outcome.ok.inj e); exact Or.inl rfl)
  | zero r n =>
    rw [hpc] at e
    simp only at e
    obtain ⟨m, _, e⟩ := Outcome.bind_eq_ok e
    obtain ⟨rfl, rfl⟩ := Prod.mk.inj (Outcome.ok.inj e)
    exact Or.inl rfl
  | copy r p n =>
    rw [hpc] at e
    simp only at e
    obtain ⟨m, _, e⟩ := Outcome.bind_eq_ok e
    obtain ⟨rfl, rfl⟩ := Prod.mk.inj (Outcome.ok.inj e)
    exact Or.inl rfl
  | look p r =>
    rw [hpc] at e
    simp only at e
    left
    split at e
    · obtain ⟨rfl, rfl⟩ := Prod.mk.inj (Outcome.ok.inj e); rfl
    · obtain ⟨u1, _, e⟩ := Outcome.bind_eq_ok e
      obtain ⟨⟨k1, x⟩, e1, e⟩ := Outcome.bind_eq_ok e
      have hG : k1.tail = k.tail := by
        unfold MS.look at e1
        obtain ⟨⟨R, b⟩, _, e1⟩ := Outcome.bind_eq_ok e1
        simp only at e1
        split at e1
        · rw [← (Prod.mk.inj (Outcome.ok.inj e1)).1]
        · split at e1
          · cases e1
          · obtain ⟨i, _, e1⟩ := Outcome.bind_eq_ok e1
            rw [← (Prod.mk.inj (Outcome.ok.inj e1)).1]
      rw [← hG]
      simp only at e
      cases x with
      | none =>
        simp only at e
        split at e
        · cases e
        · obtain ⟨rfl, rfl⟩ := Prod.mk.inj (Outcome.ok.inj e); rfl
      | some y =>
        obtain ⟨a, i⟩ := y
        simp only at e
        obtain ⟨v, _, e⟩ := Outcome.bind_eq_ok e
        split at e <;> (obtain ⟨rfl, rfl⟩ := Prod.mk.inj (Outcome.ok.inj e); rfl)
  | lfree i p r =>
    rw [hpc] at e
    simp only at e
    obtain ⟨u1, _, e⟩ := Outcome.bind_eq_ok e
    obtain ⟨u2, _, e⟩ := Outcome.bind_eq_ok e
    obtain ⟨rfl, rfl⟩ := Prod.mk.inj (Outcome.ok.inj e)
    exact Or.inl rfl
  | push j c r =>
    rw [hpc] at e h
    simp only at e
    left
    unfold pushStep at e
    cases c with
    | idle => obtain ⟨rfl, rfl⟩ := Prod.mk.inj (Outcome.ok.inj e); rfl
    | clear x =>
      obtain ⟨v, _, e⟩ := Outcome.bind_eq_ok e
      split at e
      · cases e
      · obtain ⟨rfl, rfl⟩ := Prod.mk.inj (Outcome.ok.inj e); rfl
    | swap x =>
      obtain ⟨rfl, rfl⟩ := Prod.mk.inj (Outcome.ok.inj e)
      simp only [projP] at h
      refine upd_ne (fun hij => ?_)
      rw [if_pos hij.symm] at h
      cases h
    | link x p =>
      simp only at e
      split at e <;> (obtain ⟨rfl, rfl⟩ := Prod.mk.inj (Outcome.ok.inj e); rfl)
  | rlook p b n =>
    rw [hpc] at e
    simp only at e
    left
    obtain ⟨u1, _, e⟩ := Outcome.bind_eq_ok e
    obtain ⟨⟨k1, x⟩, e1, e⟩ := Outcome.bind_eq_ok e
    have hG : k1.tail = k.tail := by
      unfold MS.look at e1
      obtain ⟨⟨R, b⟩, _, e1⟩ := Outcome.bind_eq_ok e1
      simp only at e1
      split at e1
      · rw [← (Prod.mk.inj (Outcome.ok.inj e1)).1]
      · split at e1
        · cases e1
        · obtain ⟨i, _, e1⟩ := Outcome.bind_eq_ok e1
          rw [← (Prod.mk.inj (Outcome.ok.inj e1)).1]
    rw [← hG]
    simp only at e
    cases x with
    | none => cases e
    | some y =>
      obtain ⟨a, i⟩ := y
      simp only at e
      obtain ⟨v, _, e⟩ := Outcome.bind_eq_ok e
      split at e <;> (obtain ⟨rfl, rfl⟩ := Prod.mk.inj (Outcome.ok.inj e); rfl)
  | rlocal i p b n =>
    rw [hpc] at e
    simp only at e
    obtain ⟨u1, _, e⟩ := Outcome.bind_eq_ok e
    obtain ⟨⟨u2, r⟩, _, e⟩ := Outcome.bind_eq_ok e
    obtain ⟨rfl, rfl⟩ := Prod.mk.inj (Outcome.ok.inj e)
    exact Or.inl rfl

/-! ## The other events -/

theorem start_tags (t : Nat) (op : MCall) : (K.tags μ).start t op = (K.start t op).tags μ := by
  cases op with
  | malloc b n => rfl
  | calloc b n j => rfl
  | free p => rfl
  | realloc p b n =>
    unfold MS.start
    simp only
    split
    · rfl
    · split <;> rfl

theorem tags_spawn (s : PS) (a z pb : Nat) (ht : μ s.chs.length = .run) :
    posixSpawn (s.tags μ) a z pb = (do let s' ← posixSpawn s a z pb; return s'.tags μ) := by
  unfold posixSpawn
  have : ((s.tags μ).reserve a z).w = (s.reserve a z).w := rfl
  simp only
  rw [this]
  cases userInit (s.reserve a z).w a pb 0 0 false false false <;> try rfl
  simp only [Outcome.ok_bind, Outcome.pure_eq]
  unfold PS.tags PS.reserve
  simp only
  rw [List.mapIdx_append]
  simp [ht, Chain.tag]

theorem chain_tags {t : Nat} {f : Chain → Chain} {n : Tag} (h : ∀ c, K.chs[t]? = some c → f (c.tag (μ t)) = c.tag n) :
    MS.chain (K.tags μ) t f = K.tags (upd μ t n) := by
  unfold MS.chain MS.tags
  simp only
  congr 1
  refine List.ext_getElem? fun j => ?_
  rw [List.getElem?_modify, List.getElem?_mapIdx, List.getElem?_mapIdx]
  by_cases hj : t = j
  · subst hj
    rw [upd_same]
    cases hc : K.chs[t]? with
    | none => rfl
    | some c =>
      show some (if t = t then f (c.tag (μ t)) else c.tag (μ t)) = some (c.tag n)
      rw [if_pos rfl, h c hc]
  · rw [upd_ne (Ne.symm hj)]
    cases hc : K.chs[j]? with
    | none => rfl
    | some c =>
      show some (if t = j then f (c.tag (μ j)) else c.tag (μ j)) = some (c.tag (μ j))
      rw [if_neg hj]

theorem safe_tags' {i : Nat} (I : Inv Ω cl K μ) : safe (K.tags μ) i = true ↔ μ i ≠ .run := by
  unfold safe
  rw [mtags_get]
  cases hc : K.chs[i]? with
  | none =>
    have := I.run i (List.getElem?_eq_none_iff.1 hc)
    simp [this]
  | some c => simp only [Option.map_some, Option.any_some]; exact safe_tags I hc

theorem hand_tags {i : Nat} (I : Inv Ω cl K μ) : hand (K.tags μ) i = true ↔ ∃ d, μ i = .ended d := by
  unfold hand
  rw [mtags_get]
  cases hc : K.chs[i]? with
  | none =>
    have := I.run i (List.getElem?_eq_none_iff.1 hc)
    simp [this]
  | some c =>
    have hd := (I.m.inv.chain hc).1.handler
    cases hm : μ i with
    | run => simp [Chain.tag]; exact hd
    | flag => simp [Chain.tag, Chain.flag]; exact hd
    | ended d => simp [Chain.tag, Chain.marked]

theorem calls_tags {i : Nat} (I : Inv Ω cl K μ) : calls (K.tags μ) i = if μ i = .ended true then 1 else 0 := by
  unfold calls
  rw [mtags_get]
  cases hc : K.chs[i]? with
  | none =>
    have := I.run i (List.getElem?_eq_none_iff.1 hc)
    simp [this]
  | some c =>
    have hd := (I.m.inv.chain hc).2.1
    cases hm : μ i with
    | run => simpa [Chain.tag] using hd
    | flag => simpa [Chain.tag, Chain.flag] using hd
    | ended d => cases d <;> simpa [Chain.tag, Chain.marked] using hd

/-- What an event does to the tags, the blocks and the queues. -/
structure Change (C : Config) (k k' : MS) (μ μ' : Tags) : Prop where
  len : k.chs.length ≤ k'.chs.length
  tag : ∀ i, μ' i = μ i ∨ (μ i = .run ∧ μ' i = .flag) ∨ (μ i = .flag ∧ μ' i = .ended false) ∨
    (μ i = .ended false ∧ μ' i = .ended true ∧ ∃ l ∈ k.G.all, l.owner = i ∧ ∀ c, k.chs[i]? = some c → HugeAt ⟨k.w, c⟩ l.ptr)
  cnt : ∀ i c c', μ' i = .ended false → k.chs[i]? = some c → k'.chs[i]? = some c' → c.cnt ≠ 0 → c'.cnt ≠ 0
  rest : ∀ t, (∃ d, μ t = .ended d) → k.pc t = .idle → k'.pc t = .idle
  own : ∀ l ∈ k'.G.all, μ l.owner = .run ∨ ∃ l0 ∈ k.G.all, l0.owner = l.owner
  push : ∀ u i, projP i (k.pc u) = .idle → projP i (k'.pc u) ≠ .idle → μ i = .run
  queued : ∀ l ∈ k'.G.queued, l ∉ k.G.queued → μ l.owner = .run
  left : ∀ l ∈ k.G.queued, l ∉ k'.G.queued → ∃ j nxt, k.pc l.owner = .purge j (.dfree l.ptr nxt)
  tail : ∀ i, (∀ u, projP i (k.pc u) = .idle) → k'.tail i = k.tail i ∨ k'.tail i = 0
  pc : ∀ t, μ t ≠ .run → (μ t = .flag ∧ k'.pc t = .purge (.free 0 0) .idle) ∨
    ((μ t = .flag → μ' t = .flag) ∧ (k'.pc t = k.pc t ∨ ∃ o, mstep C (k.tags μ) t = .ok (k'.tags μ', o)))

theorem start_pc {t u : Nat} {op : MCall} (h : u ≠ t) : (K.start t op).pc u = K.pc u := by
  cases op with
  | malloc b n => exact upd_ne h
  | calloc b n j => exact upd_ne h
  | free p => exact upd_ne h
  | realloc p b n =>
    unfold MS.start
    simp only
    split
    · exact upd_ne h
    · split <;> exact upd_ne h

theorem start_proj {t i : Nat} {op : MCall} : projP i ((K.start t op).pc t) = .idle := by
  cases op with
  | malloc b n => simp only [MS.start, MS.go, upd_same]; rfl
  | calloc b n j => simp only [MS.start, MS.go, upd_same]; rfl
  | free p => simp only [MS.start, MS.go, upd_same]; rfl
  | realloc p b n =>
    unfold MS.start
    simp only
    split
    · simp only [MS.go, upd_same]; rfl
    · split <;> (simp only [MS.go, upd_same]; rfl)

theorem start_chs {t : Nat} {op : MCall} : (K.start t op).chs = K.chs ∧ (K.start t op).tail = K.tail ∧ (K.start t op).head = K.head := by
  cases op with
  | malloc b n => exact ⟨rfl, rfl, rfl⟩
  | calloc b n j => exact ⟨rfl, rfl, rfl⟩
  | free p => exact ⟨rfl, rfl, rfl⟩
  | realloc p b n =>
    unfold MS.start
    simp only
    split
    · exact ⟨rfl, rfl, rfl⟩
    · split <;> exact ⟨rfl, rfl, rfl⟩

/-- A call takes a block of the client: the other blocks stay where they are. -/
theorem start_blocks {E : EndSet} {t : Nat} {op : MCall} (I : MInv Ω cl E K) (hv : MValid K t op) :
    (∀ l ∈ (K.start t op).G.all, l ∈ K.G.all) ∧ ∀ l, l ∈ (K.start t op).G.queued ↔ l ∈ K.G.queued := by
  have N := PInv.nd I.inv
  have take : ∀ p, (p = 0 ∨ ∃ l ∈ K.G.live, l.ptr = p) → (∀ l ∈ (K.G.toHand t p).all, l ∈ K.G.all) ∧
      ∀ l, l ∈ (K.G.toHand t p).queued ↔ l ∈ K.G.queued := by
    intro p hp
    refine ⟨fun l hl => ((K.G.toHand_all t p).mem_iff).1 hl, fun l => ?_⟩
    rw [toHand_queued]
    refine ⟨fun h => h.1, fun h => ⟨h, fun e => ?_⟩⟩
    rcases hp with hp | ⟨l', hl', e'⟩
    · exact I.ptr_ne (MSpec.queued_all h) (e.trans hp)
    · exact N.lq l' hl' l h (e'.trans e.symm)
  cases op with
  | malloc b n => exact ⟨fun _ h => h, fun _ => Iff.rfl⟩
  | calloc b n j => exact ⟨fun _ h => h, fun _ => Iff.rfl⟩
  | free p => exact take p hv
  | realloc p b n =>
    have hp : p = 0 ∨ ∃ l ∈ K.G.live, l.ptr = p := hv.2.2.imp id (fun ⟨l, h1, h2, _⟩ => ⟨l, h1, h2⟩)
    unfold MS.start
    simp only
    split
    · exact ⟨fun _ h => h, fun _ => Iff.rfl⟩
    · split <;> exact take p hp

/-- The invariant, after an event. -/
theorem Event.inv (hf : C.reallocFactor ≠ 0) (hX : cl → ∀ op, X op → MClean op) (hb : Ω.blocs = []) (I : Inv Ω cl K μ)
    (e : Event C X (K.tags μ) k') :
    ∃ Ω' K' μ', Env.blocs Ω' = [] ∧ k' = MS.tags K' μ' ∧ Inv Ω' cl K' μ' ∧ Change C K K' μ μ' := by
  generalize hk : K.tags μ = k at e
  cases e with
  | @call t op ht hs hpc hv hn hx =>
    subst hk
    have hrun : μ t = .run := by
      by_contra h
      rw [(safe_tags' I).2 h] at hs
      cases hs
    have hlen : t < K.chs.length := by
      have := tags_len K.ps μ
      simp only [MS.ps] at this
      have ht : t < (K.ps.tags μ).chs.length := ht
      rw [tags_len] at ht
      exact ht
    obtain ⟨b1, b2⟩ := start_blocks I.m hv
    refine ⟨Ω, K.start t op, μ, hb, start_tags t op, ⟨I.m.call hlen hpc hv (fun _ => hn) (fun c => hX c op hx), ?_, ?_, ?_⟩,
      ⟨by rw [start_chs.1], fun i => Or.inl rfl, ?_, ?_, fun l hl => Or.inr ⟨l, b1 l hl, rfl⟩, ?_, ?_, ?_, fun i _ => Or.inl (by rw [start_chs.2.1]),
        fun u hu => Or.inr ⟨id, Or.inl (start_pc (fun h => hu (by rw [h]; exact hrun)))⟩⟩⟩
    · intro i hi; rw [start_chs.1] at hi; exact I.run i hi
    · intro i c hi hc; rw [start_chs.1] at hc; exact I.cnt i c hi hc
    · intro u hu
      rw [start_pc (fun h => hu (by rw [h]; exact hrun))]
      exact I.pc u hu
    · intro i c c' _ h1 h2 h3
      rw [start_chs.1, h1] at h2
      rw [← Option.some.inj h2]; exact h3
    · intro u ⟨d, hu⟩ h
      rw [start_pc (fun h => by rw [h, hrun] at hu; cases hu)]
      exact h
    · intro u i h1 h2
      by_cases hu : u = t
      · subst hu; exact absurd start_proj h2
      · rw [start_pc hu] at h2; exact absurd h1 h2
    · intro l hl hl'; exact absurd ((b2 l).1 hl) hl'
    · intro l hl hl'; exact absurd ((b2 l).2 hl) hl'
  | @step _ t o hs =>
    subst hk
    rcases step_ok (C := C) hf I t with ⟨h, _⟩ | ⟨K', μ', o', e', I', M, V⟩
    · rw [h] at hs; cases hs
    · rw [e'] at hs
      obtain ⟨rfl, rfl⟩ := Prod.mk.inj (Outcome.ok.inj hs)
      have em : mstep C (K.tags μ) t = .ok (K'.tags μ', o') := by
        unfold ConcEnds.step at e'
        split at e'
        · cases e'
        · exact e'
      refine ⟨Ω, K', μ', hb, rfl, I', ⟨Nat.le_of_eq V.len.symm, fun i => (V.tag i).imp id (fun h => Or.inr (Or.inr h)), V.cnt, ?_, ?_,
        V.push, V.queued, ?_, ?_, ?_⟩⟩
      · intro u _ h
        by_cases hu : u = t
        · subst hu
          unfold mstep at em
          have : (K.tags μ).pc u = .idle := h
          rw [this] at em
          have em := (Prod.mk.inj (Outcome.ok.inj em)).1
          have e2 : (K'.tags μ').pc u = (K.tags μ).pc u := by rw [← em]
          exact (show K'.pc u = K.pc u from e2).trans h
        · rw [V.pc u hu]; exact h
      · intro l hl
        rcases mstep_owner em l hl with h | ⟨h, b, n, a, hpc⟩ | ⟨i, p, b, n, hpc, h⟩
        · exact Or.inr h
        · left
          rw [h]
          have hpc : K.pc t = .alloc b n a := hpc
          exact I.runs (by rw [hpc]; rintro (h | ⟨_, h | ⟨_, h⟩⟩) <;> cases h)
        · have hpc : K.pc t = .rlocal i p b n := hpc
          have := I.m.th t
          rw [hpc] at this
          obtain ⟨_, l0, hl0, h0⟩ := this
          obtain ⟨_, _, _, _, c, _, _, hold⟩ := hl0
          exact Or.inr ⟨l0, MSpec.hand_all hold.1, h0.trans h.symm⟩
      · intro l hl hl'
        obtain ⟨h1, h2⟩ := M.left l hl hl'
        rw [h1]; exact h2
      · intro i hi
        exact (mstep_tail em (hi t)).imp id (fun h => h.1)
      · intro u _
        refine Or.inr ⟨fun hu => ?_, ?_⟩
        · rcases V.tag u with h | ⟨h, _⟩
          · rw [h]; exact hu
          · rw [h] at hu; cases hu
        by_cases hu : u = t
        · subst hu; exact Or.inr ⟨_, em⟩
        · exact Or.inl (V.pc u hu)
  | @write l a v hl ha =>
    subst hk
    refine ⟨Ω, K.setMem (fun x => if x = a then v else K.w.mem x), μ, hb, rfl, ⟨I.m.write hl ha, I.run, I.cnt, I.pc⟩,
      ⟨Nat.le_refl _, fun i => Or.inl rfl, ?_, fun _ _ h => h, fun l hl => Or.inr ⟨l, hl, rfl⟩, fun _ _ h h' => absurd h h',
        fun _ h h' => absurd h h', fun _ h h' => absurd h h', fun _ _ => Or.inl rfl, fun _ _ => Or.inr ⟨id, Or.inl rfl⟩⟩⟩
    intro i c c' _ h1 h2 h3
    rw [← Option.some.inj (h1.symm.trans h2)]; exact h3
  | @spawn s a z pb hv hs =>
    subst hk
    have hs : posixSpawn (K.ps.tags μ) a z pb = .ok s := hs
    rw [tags_spawn K.ps a z pb (I.run _ (Nat.le_refl _))] at hs
    obtain ⟨s', e', hs⟩ := Outcome.bind_eq_ok hs
    obtain rfl := Outcome.ok.inj hs
    have hadd : ∃ c, s'.chs = K.chs ++ [c] := by
      unfold posixSpawn at e'
      obtain ⟨u, _, e'⟩ := Outcome.bind_eq_ok e'
      rw [← Outcome.ok.inj e']
      exact ⟨_, rfl⟩
    obtain ⟨c0, hadd⟩ := hadd
    have hlen : (K.tags μ).chs.length = K.chs.length := tags_len K.ps μ
    have hold : ∀ (i : Nat) (c : Chain), K.chs[i]? = some c → s'.chs[i]? = some c := by
      intro i c hc
      rw [hadd, List.getElem?_append_left (List.getElem?_eq_some_iff.1 hc).1]
      exact hc
    refine ⟨Ω.spawn a z pb, K.spawned s', μ, hb, ?_, ⟨I.m.spawn hv e', ?_, ?_, I.pc⟩,
      ⟨by show K.chs.length ≤ s'.chs.length; rw [hadd]; simp, fun i => Or.inl rfl, ?_, fun _ _ h => h, fun l hl => Or.inr ⟨l, hl, rfl⟩,
        fun _ _ h h' => absurd h h', fun _ h h' => absurd h h', fun _ h h' => absurd h h', ?_, fun _ _ => Or.inr ⟨id, Or.inl rfl⟩⟩⟩
    · unfold MS.spawned
      rw [hlen]
      rfl
    · intro i hi
      have hi : s'.chs.length ≤ i := hi
      rw [hadd] at hi
      simp at hi
      exact I.run i (by omega)
    · intro i c hi hc
      have hc : s'.chs[i]? = some c := hc
      have hil : i < K.chs.length := by
        by_contra hn
        rw [I.run i (by omega)] at hi
        cases hi
      rw [hadd, List.getElem?_append_left hil] at hc
      exact I.cnt i c hi hc
    · intro i c c' _ h1 h2 h3
      have h2 : s'.chs[i]? = some c' := h2
      rw [hold i c h1] at h2
      rw [← Option.some.inj h2]; exact h3
    · intro i _
      show upd K.tail K.chs.length 0 i = _ ∨ upd K.tail K.chs.length 0 i = 0
      by_cases hi : i = K.chs.length
      · right; rw [hi]; exact upd_same _ _ _
      · left; exact upd_ne hi
  | @flag t ht hs hpc =>
    subst hk
    have hrun : μ t = .run := by
      by_contra h
      rw [(safe_tags' I).2 h] at hs
      cases hs
    have hlt : t < K.chs.length := by
      have ht : t < (K.ps.tags μ).chs.length := ht
      rw [tags_len] at ht
      exact ht
    refine ⟨Ω, K, upd μ t .flag, hb, chain_tags (fun c hc => ?_),
      ⟨MInv.mono (fun o ho => ?_) (fun _ => trivial) I.m, fun i hi => ?_, fun i c hi hc => ?_, fun u hu => ?_⟩,
      ⟨Nat.le_refl _, fun i => ?_, ?_, fun _ _ h => h, fun l hl => Or.inr ⟨l, hl, rfl⟩,
        fun _ _ h h' => absurd h h', fun _ h h' => absurd h h', fun _ h h' => absurd h h', fun _ _ => Or.inl rfl, fun u _ => Or.inr ⟨fun hu => ?_, Or.inl rfl⟩⟩⟩
    · have hl := (I.m.inv.chain (show K.ps.chs[t]? = some c from hc)).1.lock
      have hl : c.lock = false := hl
      rw [hrun]
      show { c with threadSafe := true } = { c with threadSafe := true, lock := false }
      rw [← hl]
    · show upd μ t .flag o ≠ .run
      by_cases hot : o = t
      · rw [hot, upd_same]; simp
      · rw [upd_ne hot]; exact ho
    · rw [upd_ne (by omega)]; exact I.run i hi
    · by_cases hit : i = t
      · rw [hit, upd_same] at hi; cases hi
      · rw [upd_ne hit] at hi; exact I.cnt i c hi hc
    · by_cases hut : u = t
      · rw [hut]; exact Or.inl hpc
      · rw [upd_ne hut] at hu ⊢; exact I.pc u hu
    · by_cases hit : i = t
      · rw [hit, upd_same]; exact Or.inr (Or.inl ⟨hrun, rfl⟩)
      · rw [upd_ne hit]; exact Or.inl rfl
    · intro i c c' _ h1 h2 h3
      rw [← Option.some.inj (h1.symm.trans h2)]; exact h3
    · by_cases hut : u = t
      · rw [hut, upd_same]
      · rw [upd_ne hut]; exact hu
  | @handler t hs hh hpc =>
    subst hk
    have hflag : μ t = .flag := by
      have h1 := (safe_tags' I).1 hs
      cases hm : μ t with
      | run => exact absurd hm h1
      | flag => rfl
      | ended d => rw [(hand_tags I).2 ⟨d, hm⟩] at hh; cases hh
    have hlt : t < K.chs.length := by
      by_contra h
      rw [I.run t (by omega)] at hflag
      cases hflag
    have hv : MValid K t (.free 0) := Or.inl rfl
    obtain ⟨b1, b2⟩ := start_blocks I.m hv
    have hsub : ∀ o, (endSet μ).has o → (endSet (upd μ t (.ended false))).has o := by
      intro o ho
      show upd μ t (.ended false) o ≠ .run
      by_cases hot : o = t
      · rw [hot, upd_same]; simp
      · rw [upd_ne hot]; exact ho
    have J : MInv Ω cl (endSet (upd μ t (.ended false))) K := MInv.mono hsub (fun _ => trivial) I.m
    have hpc' : (K.start t (.free 0)).pc t = .purge (.free 0 0) .idle := upd_same _ _ _
    refine ⟨Ω, K.start t (.free 0), upd μ t (.ended false), hb, ?_,
      ⟨J.call hlt hpc hv (fun _ => trivial) (fun _ => trivial), fun i hi => ?_, fun i c hi hc => ?_, fun u hu => ?_⟩,
      ⟨Nat.le_refl _, fun i => ?_, ?_, ?_, fun l hl => Or.inr ⟨l, b1 l hl, rfl⟩, ?_, fun l hl hl' => absurd ((b2 l).1 hl) hl',
        fun l hl hl' => absurd ((b2 l).2 hl) hl', fun i _ => Or.inl rfl, fun u _ => ?_⟩⟩
    · unfold setHandler
      rw [chain_tags (K := K) (μ := μ) (t := t) (n := .ended false) (fun c hc => ?_), start_tags]
      have hq := I.m.inv.chain (show K.ps.chs[t]? = some c from hc)
      have hl : c.dead = false := hq.1.dead
      rw [hflag]
      unfold Chain.tag Chain.flag Chain.marked
      simp [hl]
    · rw [upd_ne (by have : K.chs.length ≤ i := hi; omega)]; exact I.run i hi
    · by_cases hit : i = t
      · rw [hit, upd_same] at hi; cases hi
      · rw [upd_ne hit] at hi; exact I.cnt i c hi hc
    · by_cases hut : u = t
      · rw [hut, upd_same, hpc']; exact Or.inr ⟨⟨_, rfl⟩, Or.inr ⟨_, rfl⟩⟩
      · rw [upd_ne hut] at hu ⊢; rw [start_pc hut]; exact I.pc u hu
    · by_cases hit : i = t
      · rw [hit, upd_same]; exact Or.inr (Or.inr (Or.inl ⟨hflag, rfl⟩))
      · rw [upd_ne hit]; exact Or.inl rfl
    · intro i c c' _ h1 h2 h3
      have h2 : K.chs[i]? = some c' := h2
      rw [← Option.some.inj (h1.symm.trans h2)]; exact h3
    · intro u ⟨d, hu⟩ h
      rw [start_pc (fun h => by rw [h, hflag] at hu; cases hu)]
      exact h
    · intro u i h1 h2
      by_cases hu : u = t
      · subst hu; exact absurd start_proj h2
      · rw [start_pc hu] at h2; exact absurd h1 h2
    · by_cases hu : u = t
      · subst hu; exact Or.inl ⟨hflag, hpc'⟩
      · exact Or.inr ⟨fun h => by rw [upd_ne hu]; exact h, Or.inl (start_pc hu)⟩

/-- All the states that come after. -/
theorem Events.inv (hf : C.reallocFactor ≠ 0) (hX : cl → ∀ op, X op → MClean op) (hb : Ω.blocs = []) (I : Inv Ω cl K μ)
    (e : Events C X (K.tags μ) k') :
    ∃ Ω' K' μ', Env.blocs Ω' = [] ∧ k' = MS.tags K' μ' ∧ Inv Ω' cl K' μ' := by
  induction e with
  | refl => exact ⟨Ω, K, μ, hb, rfl, I⟩
  | tail _ e ih =>
    obtain ⟨Ω1, K1, μ1, hb1, rfl, I1⟩ := ih
    obtain ⟨Ω2, K2, μ2, hb2, h2, I2, _⟩ := Event.inv hf hX hb1 I1 e
    exact ⟨Ω2, K2, μ2, hb2, h2, I2⟩

/-- All the reachable states. -/
theorem Reach.inv (hf : C.reallocFactor ≠ 0) (hX : cl → ∀ op, X op → MClean op) (h : Reach C X k) :
    ∃ Ω K μ, Env.blocs Ω = [] ∧ k = MS.tags K μ ∧ Inv Ω cl K μ := by
  obtain ⟨k0, ⟨m, R, o, h1, h2, h3, rfl⟩, e⟩ := h
  have I : Inv Env.none cl ⟨⟨m, R, Light.init o⟩, [], fun _ => 0, fun _ => 0, fun _ => .idle, ⟨[], [], []⟩, fun _ => none⟩ (fun _ => .run) :=
    ⟨MInv.init h1 h2 h3, fun _ _ => rfl, fun _ _ h => (by cases h), fun _ h => absurd rfl h⟩
  exact Events.inv hf hX rfl I e

/-! ## The last purge -/

/-- No block is in the hands of a queue that the owner finds empty and to which nobody pushes. -/
theorem MInv.empty {E : EndSet} {i : Nat} (I : MInv Ω cl E K) (h1 : projC (K.pc i) = .idle) (h2 : K.head i = 0)
    (h3 : ∀ u, projP i (K.pc u) = .idle) : ∀ l ∈ K.G.queued, l.owner ≠ i := by
  intro l hl ho
  obtain ⟨q, R, r⟩ := I.q i
  have hp : ∀ u, q.prod u = .idle := fun u => by rw [r.prod]; exact h3 u
  have e := Queue.C25_nothing_lost R (fun t e p => by rw [hp t]; simp) (r.cons.trans h1) (by rw [r.head]; exact h2)
  have fl := (r.fl l.ptr).2 ⟨l, hl, ho, rfl⟩
  unfold InFlight at fl
  rcases fl with ⟨t, ht⟩ | fl
  · rw [hp t] at ht
    simp at ht
  · rw [e, List.length_map] at fl
    rw [List.drop_eq_nil_of_le (by simp)] at fl
    cases fl

/-- The same at the end of a purge that has not met the tail of a later push. -/
theorem MInv.emptied {E : EndSet} {i : Nat} (I : MInv Ω cl E K) (h1 : projC (K.pc i) = .dread 0) (h2 : K.tail i = 0)
    (h3 : ∀ u, projP i (K.pc u) = .idle) : ∀ l ∈ K.G.queued, l.owner ≠ i := by
  intro l hl ho
  obtain ⟨q, R, r⟩ := I.q i
  have hp : ∀ u, q.prod u = .idle := fun u => by rw [r.prod]; exact h3 u
  have fl := (r.fl l.ptr).2 ⟨l, hl, ho, rfl⟩
  obtain ⟨D, Q, own, J⟩ := R.inv
  rw [J.inFlight] at fl
  rcases fl with ⟨t, ht⟩ | fl
  · rw [hp t] at ht
    simp at ht
  · have hc := J.cons
    unfold Queue.ConsOK at hc
    rw [r.cons, h1] at hc
    have hz := J.nz
    have hD : D = [] := by
      cases D with
      | nil => rfl
      | cons d D => exact absurd (by rw [hc.1]; simp) hz
    have hQ : Q = [] := by
      have ht := J.tail
      rw [r.tail, h2] at ht
      cases hg : Q.getLast? with
      | none => exact List.getLast?_eq_none_iff.1 hg
      | some x =>
        rw [hg] at ht
        exact absurd (List.mem_append_right _ (by rw [show 0 = x from ht]; exact List.mem_of_getLast? hg)) hz
    rw [hD, hQ] at fl
    cases fl

/-- The purge has taken the entries of the queue. -/
def Taken : CPC → Prop
  | .walk _ _ _ => True
  | .adv _ _ _ => True
  | .dread _ => True
  | .dfree _ _ => True
  | _ => False

/-- Thread `t` has begun to end and nobody pushes to its queue. -/
structure Dry (k : MS) (μ : Tags) (t : Nat) : Prop where
  tag : μ t ≠ .run
  push : ∀ u, projP t (k.pc u) = .idle
  tail : ∀ j c, k.pc t = .purge j c → Taken c → k.tail t = 0
  none : (∃ d, μ t = .ended d) → projC (k.pc t) = .idle → (∀ j c, k.pc t ≠ .purge j c) → ∀ l ∈ k.G.queued, l.owner ≠ t

theorem Dry.next {Ω' : Env} {K' : MS} {μ' : Tags} {t : Nat} (I : Inv Ω cl K μ) (I' : Inv Ω' cl K' μ') (V : Change C K K' μ μ')
    (h : Dry K μ t) : Dry K' μ' t := by
  have tag : μ' t ≠ .run := by
    rcases V.tag t with e | ⟨_, e⟩ | ⟨_, e⟩ | ⟨_, e, _⟩
    · rw [e]; exact h.tag
    · rw [e]; simp
    · rw [e]; simp
    · rw [e]; simp
  have push : ∀ u, projP t (K'.pc u) = .idle := by
    intro u
    by_contra hn
    exact h.tag (V.push u t (h.push u) hn)
  have keep : K.tail t = 0 → K'.tail t = 0 := fun h0 => (V.tail t h.push).elim (fun e => e.trans h0) id
  have old : (∀ l ∈ K.G.queued, l.owner ≠ t) → ∀ l ∈ K'.G.queued, l.owner ≠ t := by
    intro h0 l hl ho
    by_cases hl' : l ∈ K.G.queued
    · exact h0 l hl' ho
    · exact h.tag (by rw [← ho]; exact V.queued l hl hl')
  have was : (μ t = .flag → μ' t = .flag) → (∃ d, μ' t = .ended d) → ∃ d, μ t = .ended d := by
    rintro h1 ⟨d, h2⟩
    cases hm : μ t with
    | run => exact absurd hm h.tag
    | flag => rw [h1 hm] at h2; cases h2
    | ended d' => exact ⟨d', rfl⟩
  refine ⟨tag, push, ?_, ?_⟩
  · intro j c hpc ht
    rcases V.pc t h.tag with ⟨_, e⟩ | ⟨hfl, e | ⟨o, e⟩⟩
    · rw [e] at hpc
      obtain ⟨_, rfl⟩ := MPc.purge.inj hpc
      exact absurd ht (by simp [Taken])
    · exact keep (h.tail j c (by rw [← e]; exact hpc) ht)
    · have hE := I.pc t h.tag
      cases hp : K.pc t with
      | purge j0 c0 =>
        have hp' : (K.tags μ).pc t = .purge j0 c0 := hp
        unfold mstep at e
        rw [hp'] at e
        obtain ⟨k1, e1, e2⟩ := Outcome.bind_eq_ok e
        obtain ⟨e2, _⟩ := Prod.mk.inj (Outcome.ok.inj e2)
        by_cases h0 : Taken c0
        · exact keep (h.tail j0 c0 hp h0)
        · unfold purgeStep at e1
          cases c0 with
          | idle =>
            exfalso
            have e1 := Outcome.ok.inj e1
            have hq : k1.pc t = .purge j c := by rw [e2]; exact hpc
            split at e1
            · rw [← e1] at hq
              simp only [MS.go, upd_same] at hq
              cases j0 <;> cases hq
            · rw [← e1] at hq
              simp only [MS.go, upd_same] at hq
              obtain ⟨_, rfl⟩ := MPc.purge.inj hq
              exact ht
          | load =>
            exfalso
            have hz : K.head t ≠ 0 := by
              obtain ⟨q, R, r⟩ := I.m.q t
              rw [← r.head]
              exact Queue.load_head R (by rw [r.cons, hp]; rfl)
            have hq : k1.pc t = .purge j c := by rw [e2]; exact hpc
            rw [← Outcome.ok.inj e1] at hq
            simp only [MS.go, upd_same] at hq
            rw [if_neg (show (K.tags μ).head t ≠ 0 from hz)] at hq
            obtain ⟨_, rfl⟩ := MPc.purge.inj hq
            exact ht
          | clearHead x =>
            exfalso
            have hq : k1.pc t = .purge j c := by rw [e2]; exact hpc
            rw [← Outcome.ok.inj e1] at hq
            simp only [MS.go, upd_same] at hq
            obtain ⟨_, rfl⟩ := MPc.purge.inj hq
            exact ht
          | swapTail x =>
            have hq : k1.tail t = 0 := by rw [← Outcome.ok.inj e1]; exact upd_same _ _ _
            rw [e2] at hq
            exact hq
          | walk _ _ _ => exact absurd trivial h0
          | adv _ _ _ => exact absurd trivial h0
          | dread _ => exact absurd trivial h0
          | dfree _ _ => exact absurd trivial h0
      | _ =>
        exfalso
        rw [hp] at hE
        rcases hE with hE | ⟨_, hE | ⟨_, hE⟩⟩
        all_goals try cases hE
        all_goals
          have hp' := show (K.tags μ).pc t = _ from hp
          unfold mstep at e
          rw [hp'] at e
          obtain ⟨e2, _⟩ := Prod.mk.inj (Outcome.ok.inj e)
          have hq : (K'.tags μ').pc t = .purge j c := hpc
          rw [← e2] at hq
          first
            | (rw [hp'] at hq; cases hq)
            | (simp only [upd_same] at hq; cases hq)
  · intro hd hc hn
    rcases V.pc t h.tag with ⟨_, e⟩ | ⟨hfl, e | ⟨o, e⟩⟩
    · exact absurd e (hn _ _)
    · exact old (h.none (was hfl hd) (by rw [← e]; exact hc) (by rw [← e]; exact hn))
    · have hE := I.pc t h.tag
      cases hp : K.pc t with
      | purge j0 c0 =>
        have hp' : (K.tags μ).pc t = .purge j0 c0 := hp
        unfold mstep at e
        rw [hp'] at e
        obtain ⟨k1, e1, e2⟩ := Outcome.bind_eq_ok e
        obtain ⟨e2, _⟩ := Prod.mk.inj (Outcome.ok.inj e2)
        have hq : ∀ j c, k1.pc t ≠ .purge j c := by rw [e2]; exact hn
        unfold purgeStep at e1
        cases c0 with
        | idle =>
          have e1 := Outcome.ok.inj e1
          split at e1
          · rename_i hz
            refine MInv.empty I'.m hc ?_ push
            have : (K'.tags μ').head t = 0 := by rw [← e2, ← e1]; exact hz
            exact this
          · exact absurd (by rw [← e1]; exact upd_same _ _ _) (hq _ _)
        | load => exact absurd (by rw [← Outcome.ok.inj e1]; exact upd_same _ _ _) (hq _ _)
        | clearHead x => exact absurd (by rw [← Outcome.ok.inj e1]; exact upd_same _ _ _) (hq _ _)
        | swapTail x => exact absurd (by rw [← Outcome.ok.inj e1]; exact upd_same _ _ _) (hq _ _)
        | walk x tl cur =>
          simp only at e1
          split at e1
          · exact absurd (by rw [← Outcome.ok.inj e1]; exact upd_same _ _ _) (hq _ _)
          · split at e1
            · cases e1
            · have e1 := Outcome.ok.inj e1
              split at e1
              · exact absurd (by rw [← e1]; exact hp') (hq _ _)
              · exact absurd (by rw [← e1]; exact upd_same _ _ _) (hq _ _)
        | adv x tl cur =>
          simp only at e1
          split at e1
          · cases e1
          · exact absurd (by rw [← Outcome.ok.inj e1]; exact upd_same _ _ _) (hq _ _)
        | dread cur =>
          by_cases h0 : cur = 0
          · subst h0
            exact old (MInv.emptied I.m (by rw [hp]; rfl) (h.tail _ _ hp trivial) h.push)
          · have e1 := Outcome.ok.inj e1
            rw [if_neg h0] at e1
            exact absurd (by rw [← e1]; exact upd_same _ _ _) (hq _ _)
        | dfree cur nxt =>
          simp only at e1
          obtain ⟨u1, _, e1⟩ := Outcome.bind_eq_ok e1
          obtain ⟨u2, _, e1⟩ := Outcome.bind_eq_ok e1
          exact absurd (by rw [← Outcome.ok.inj e1]; exact upd_same _ _ _) (hq _ _)
      | idle => exact old (h.none (was hfl hd) (by rw [hp]; rfl) (by rw [hp]; simp))
      | look p r => exact old (h.none (was hfl hd) (by rw [hp]; rfl) (by rw [hp]; simp))
      | _ =>
        exfalso
        rw [hp] at hE
        rcases hE with hE | ⟨_, hE | ⟨_, hE⟩⟩ <;> cases hE

/-- The last purge of a thread to whose queue nobody pushes leaves no block in the hands of the queue. -/
theorem Events.dry {t : Nat} (hf : C.reallocFactor ≠ 0) (hX : cl → ∀ op, X op → MClean op) (hb : Ω.blocs = []) (I : Inv Ω cl K μ)
    (h : Dry K μ t) (e : Events C X (K.tags μ) k') :
    ∃ Ω' K' μ', Env.blocs Ω' = [] ∧ k' = MS.tags K' μ' ∧ Inv Ω' cl K' μ' ∧ Dry K' μ' t := by
  induction e with
  | refl => exact ⟨Ω, K, μ, hb, rfl, I, h⟩
  | tail _ e ih =>
    obtain ⟨Ω1, K1, μ1, hb1, rfl, I1, h1⟩ := ih
    obtain ⟨Ω2, K2, μ2, hb2, h2, I2, V⟩ := Event.inv hf hX hb1 I1 e
    exact ⟨Ω2, K2, μ2, hb2, h2, I2, h1.next I1 I2 V⟩

end

end ConcEnds

end MpcAlloc
