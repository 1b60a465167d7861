import Verif.ConcReallocLemmas

/-
Every step of the threads keeps the invariant, with realloc.
-/

namespace MpcAlloc
namespace CR

variable {σ : Type} {S : Source σ} {C : Config} {pb : Nat} {B : List (Nat × Nat)} {s0 s s' : CS σ} {L0 Ls Ls' : List Block}
  {k k' : KS σ} {rs rs' : List Nat} {A A' : AHeap} {t u : Nat} {r r' : RS σ}

/-- A step that ends a realloc gives a block that holds the bytes of the old one. -/
def Result (r : RS σ) (t : Nat) (r' : RS σ) : Prop :=
  ∀ c, callOf (r.pc t) = some c → r'.pc t = .out → ∃ q, r'.last t = some q ∧
    (q ≠ 0 → ∃ l ∈ r'.k.live, l.ptr = q ∧ l.len = c.n ∧
      ∀ i, i < c.l.len → i < c.n → r'.k.s.w.mem (q + i) = c.snap i)

/-- The step is defined, keeps the invariant and gives the right result. -/
def StepOk (S : Source σ) (C : Config) (pb : Nat) (B : List (Nat × Nat)) (s0 : CS σ) (L0 : List Block) (r : RS σ) (t : Nat)
    (o : Outcome (RS σ)) : Prop :=
  ∃ r', o = .ok r' ∧ (∃ s' rs' Ls' A', RInv S C pb B s0 L0 r' s' rs' Ls' A') ∧ Result r t r'

theorem Result.start (h : r.pc t = .out) : Result r t r' := by
  intro c hc
  rw [h] at hc; cases hc

theorem Result.goes {P : Pc} (hP : P ≠ .out) : Result r t (r.goto k' t P) := by
  intro c _ h
  exact absurd ((if_pos rfl).symm.trans h) hP

theorem blockAt_live {p : Nat} {l : Block} (hl : l ∈ k.live) (hp : l.ptr = p) : blockAt k p ∈ k.live ∧ (blockAt k p).ptr = p := by
  unfold blockAt
  cases h : k.live.find? (fun l => decide (l.ptr = p)) with
  | none =>
    have := List.find?_eq_none.1 h l hl
    simp [hp] at this
  | some x => exact ⟨List.mem_of_find?_eq_some h, by simpa using List.find?_some h⟩

/-- A call that is not a realloc, or ends as an allocation or a free. -/
theorem RInv.plainStep (hf : C.reallocFactor ≠ 0) (h0 : MpcAlloc.Reach S C pb s0 L0 B) (H : RInv S C pb B s0 L0 r s rs Ls A)
    (hpc : r.pc t = .out) {a : KAct} (hv : r.k.pc t = .idle → Valid B r (.plain a)) :
    StepOk S C pb B s0 L0 r t (do let k ← kstep S C r.k t a; return r.goto k t .out) := by
  have hkv : r.k.pc t = .idle → KValid B r.k a := by
    intro h
    have := hv h
    cases a with
    | alloc b n => exact this
    | free p => exact this.imp_right (fun ⟨l, h1, h2, _⟩ => ⟨l, h1, h2⟩)
    | write x v => obtain ⟨l, h1, h2, _⟩ := this; exact ⟨l, h1, h2⟩
  obtain ⟨k', s', rs', Ls', A', e, H', _, hm⟩ := H.kmove hf h0 hkv (by
    rintro l hl u _ hp ⟨hi, hT⟩
    have := hv hi
    cases a with
    | alloc b n => exact hT
    | free p =>
      have hT : p = l.ptr := hT
      rcases this with h | ⟨_, _, _, h⟩
      · exact H.ki.livePos hl (hT.symm.trans h)
      · exact h u (hT ▸ hp)
    | write x v =>
      obtain ⟨l', h1, h2, h3⟩ := this
      have hne : l ≠ l' := by rintro rfl; exact h3 u hp
      exact H.ki.disj hf h0 hl h1 hne x ⟨hT, h2⟩)
  rw [e, Outcome.ok_bind]
  exact ⟨_, rfl, ⟨s', rs', Ls', A', hm .out r.last trivial (by simp [held])⟩, Result.start hpc⟩

/-- A realloc starts. -/
theorem RInv.startStep (hf : C.reallocFactor ≠ 0) (h0 : MpcAlloc.Reach S C pb s0 L0 B) (H : RInv S C pb B s0 L0 r s rs Ls A)
    (hpc : r.pc t = .out) (hi : r.k.pc t = .idle) {a : Act} (hv : Valid B r a) :
    StepOk S C pb B s0 L0 r t (rstart S C r t a) := by
  cases a with
  | plain a => exact H.plainStep hf h0 hpc (fun _ => hv)
  | realloc p b n =>
    obtain ⟨hb, hsz, hp⟩ := hv
    unfold rstart
    simp only
    by_cases hp0 : p = 0
    · subst hp0
      by_cases hn : n = 0
      · subst hn
        rw [if_pos ⟨rfl, rfl⟩]
        have H1 := H.ki.now (op := .realloc 0 b 0) (t := t) rfl ⟨hb, hsz, Or.inl rfl⟩ trivial (by
          show chainRealloc S C b s 0 0 = _
          unfold chainRealloc
          rw [if_pos ⟨rfl, rfl⟩]) rfl rfl
        refine ⟨_, rfl, ⟨s, _, Ls, A, H.move H1 (fun _ _ => rfl) ?_ trivial (by simp [held])⟩, Result.start hpc⟩
        rintro l hl _
        exact ⟨hl, fun _ _ => rfl, fun _ h _ => h⟩
      · rw [if_neg (by omega), if_pos rfl]
        exact H.plainStep hf h0 hpc (fun _ => ⟨hb, hsz⟩)
    · obtain ⟨l, hl, hlp, hun, hg⟩ := hp.resolve_left hp0
      rw [if_neg (by omega), if_neg hp0]
      by_cases hn : n = 0
      · rw [if_pos hn]
        exact H.plainStep hf h0 hpc (fun _ => Or.inr ⟨l, hl, hlp, hun⟩)
      · rw [if_neg hn]
        obtain ⟨g1, g2⟩ := blockAt_live hl hlp
        have hbl : blockAt r.k p = l := H.ki.liveUnique hf h0 g1 hl (g2.trans hlp.symm)
        have H1 : KInv S C pb B B s0 L0 (begin r.k p b n).1 s rs Ls A := by
          refine H.ki.setData ?_
          intro l' hl' x hx v hv
          split at hv
          · cases hv; rfl
          · exact H.ki.data l' hl' x hx v hv
        have hdata : ∀ x, (begin r.k p b n).1.data x =
            if l.ptr ≤ x ∧ x < l.ptr + l.len then some (r.k.s.w.mem x) else r.k.data x := by
          intro x
          show (if (blockAt r.k p).ptr ≤ x ∧ x < (blockAt r.k p).ptr + (blockAt r.k p).len then some (r.k.s.w.mem x) else r.k.data x) = _
          rw [hbl]
        have hc : (begin r.k p b n).2 = ⟨l, b, n, fun i => r.k.s.w.mem (l.ptr + i)⟩ := by
          show (⟨blockAt r.k p, b, n, fun i => r.k.s.w.mem ((blockAt r.k p).ptr + i)⟩ : Call) = _
          rw [hbl]
        rw [hc]
        refine ⟨_, rfl, ⟨s, rs, Ls, A, H.move H1 (fun _ _ => rfl) ?_ ?_ ?_⟩, Result.start hpc⟩
        · rintro l' hl' ⟨u, _, hp⟩
          refine ⟨hl', ?_, fun _ h _ => h⟩
          intro x hx
          rw [hdata, if_neg]
          intro h
          have hne : l' ≠ l := by
            rintro rfl
            rw [hlp] at hp
            exact hun u hp
          exact H.ki.disj hf h0 hl' hl hne x ⟨hx, h⟩
        · refine ⟨hi, hl, hb, hsz, hn, hg.resolve_left hn, ?_⟩
          intro x hx
          have hx : l.ptr ≤ x ∧ x < l.ptr + l.len := hx
          rw [hdata, if_pos hx]
          show some (r.k.s.w.mem x) = some (r.k.s.w.mem (l.ptr + (x - l.ptr)))
          rw [Nat.add_sub_cancel' hx.1]
        · intro q hq _
          simp [held] at hq
          right
          intro u _
          rw [hq, hlp]
          exact hun u

/-- The decision. -/
theorem RInv.readStep (hf : C.reallocFactor ≠ 0) (h0 : MpcAlloc.Reach S C pb s0 L0 B) (H : RInv S C pb B s0 L0 r s rs Ls A)
    {c : Call} (hpc : r.pc t = .read c) (a : Act) : StepOk S C pb B s0 L0 r t (rstep S C r t a) := by
  have h := H.pcs t
  rw [hpc] at h
  obtain ⟨hi, ho⟩ := h
  obtain ⟨old, hs⟩ := H.ki.src_of ho.live ho.grow
  have hs' := hs
  obtain ⟨d, hd, hdp, hfit, hds, hsafe⟩ := hs'
  have hrange := H.ki.wf.has_range hd.1
  obtain ⟨v, e1, e2, e3⟩ := getChunk_used H.ki.wf H.ki.memK hd
  have e1' : getChunk r.k.s.w.mem c.l.ptr = .ok v := by rw [← hdp]; exact e1
  have e3' : getUnpaddedSize r.k.s.w.mem v = .ok d.size := e3
  have hold : sub64 d.size 16 = old := by rw [sub64_eq (by omega) (by omega)]; omega
  unfold rstep
  rw [hpc]
  simp only
  rw [e1', Outcome.ok_bind, if_neg e2, e3', Outcome.ok_bind]
  rw [hold, if_neg (fun h => hf h.1)]
  have hsub : c.n ≤ old → sub64 old c.n = old - c.n := fun h => sub64_eq h (by omega)
  by_cases hk : old ≥ c.n ∧ sub64 old c.n ≤ C.reallocThreshold ∧ sub64 old c.n ≤ old / C.reallocFactor
  · rw [if_pos hk]
    rw [hsub hk.1] at hk
    obtain ⟨rs', Ls', H', hml⟩ := H.ki.resize hf h0 ho.live ho.grow ho.bound ho.size ho.pos hs hk
    have hnew : { c.l with len := c.n } ∈ (CR.resize r.k c).live := (hml _).2 (Or.inl rfl)
    have hbase : ∀ x, c.l.ptr ≤ x → x < c.l.ptr + c.l.len → (CR.resize r.k c).data x = r.k.data x := by
      intro x _ _
      exact if_neg (by omega)
    refine ⟨_, rfl, ⟨s, rs', Ls', A, H.move H' (fun _ _ => rfl) ?_ trivial (by simp [held])⟩, ?_⟩
    · rintro l hl ⟨u, hu, hp⟩
      have hne : l.ptr ≠ c.l.ptr := by
        intro h
        rw [h] at hp
        exact H.apart u t c.l.ptr hu (H.ki.livePos ho.live) hp (by rw [hpc]; simp [held])
      have hl' : l ∈ (CR.resize r.k c).live := (hml l).2 (Or.inr ⟨hl, hne⟩)
      refine ⟨hl', ?_, fun _ h _ => h⟩
      intro x hx
      refine if_neg ?_
      rintro ⟨x1, x2⟩
      refine H'.disj hf h0 hl' hnew ?_ x ⟨hx, by simp only; omega, x2⟩
      intro h
      exact hne (by rw [h])
    · intro c' hc' _
      rw [hpc] at hc'
      cases hc'
      refine ⟨c.l.ptr, if_pos rfl, fun _ => ⟨_, hnew, rfl, rfl, ?_⟩⟩
      intro i h1 h2
      have hbyte : c.l.Byte (c.l.ptr + i) := ⟨by omega, by omega⟩
      refine H'.data _ hnew (c.l.ptr + i) ⟨by simp only; omega, by simp only; omega⟩ _ ?_
      rw [hbase _ hbyte.1 hbyte.2, ho.data _ hbyte, Nat.add_sub_cancel_left]
  · rw [if_neg hk]
    obtain ⟨k', s', rs', Ls', A', e, H', hfr, hm⟩ := H.kmove (t := t) (a := .alloc c.b c.n) hf h0
      (fun _ => ⟨ho.bound, ho.size⟩) (fun l _ u _ _ h => h.2)
    rw [e, Outcome.ok_bind]
    have fr := hfr c.l ho.live (fun h => h.2)
    refine ⟨_, rfl, ⟨s', rs', Ls', A', hm _ r.last ⟨?_, ho.frame fr, hs.frame fr⟩ ?_⟩, Result.goes (fun h => by cases h)⟩
    · unfold kstep kstart at e
      rw [hi] at e
      simp only at e
      rw [if_neg ho.pos] at e
      cases e
      rw [goto_pc]
      exact ⟨rfl, rfl⟩
    · intro p hp _
      left
      rw [hpc]
      exact hp

/-- A step of the allocation. -/
theorem RInv.allocStep (hf : C.reallocFactor ≠ 0) (h0 : MpcAlloc.Reach S C pb s0 L0 B) (H : RInv S C pb B s0 L0 r s rs Ls A)
    {c : Call} {old : Nat} (hpc : r.pc t = .alloc c old) (a : Act) : StepOk S C pb B s0 L0 r t (rstep S C r t a) := by
  have h := H.pcs t
  rw [hpc] at h
  obtain ⟨hi, ho, hs⟩ := h
  obtain ⟨k', s', rs', Ls', A', e, H', hfr, hm⟩ := H.kmove (t := t) (a := .free 0) hf h0
      (fun h => absurd h hi.busy) (fun l _ u _ _ => noTouch hi.busy l)
  have fr := hfr c.l ho.live (noTouch hi.busy _)
  unfold rstep
  rw [hpc]
  simp only
  rw [e, Outcome.ok_bind]
  rcases H.ki.allocStep hi e with g | ⟨g1, q, g2, g3⟩
  · rw [if_neg (by rw [idleB_iff]; exact g.busy)]
    refine ⟨_, rfl, ⟨s', rs', Ls', A', hm _ r.last ⟨g, ho.frame fr, hs.frame fr⟩ ?_⟩, Result.goes (fun h => by cases h)⟩
    intro p hp _
    left
    rw [hpc]
    exact hp
  · rw [if_pos (idleB_iff.2 g1), g2]
    simp only [Option.getD_some]
    have hnov : ¬ (q ≠ 0 ∧ (if old < c.n then old else c.n) ≠ 0 ∧ q < c.l.ptr + (if old < c.n then old else c.n) ∧
        c.l.ptr < q + (if old < c.n then old else c.n)) := by
      rintro ⟨hq, _, h1, h2⟩
      obtain ⟨n1, n2⟩ := g3 hq
      obtain ⟨_, dq, hdq, q1, q2, _⟩ := H'.owned n1
      obtain ⟨d, hd, hdp, hfit, hds, hsafe⟩ := hs.frame fr
      have hne : dq ≠ d := by
        rintro rfl
        exact n2 c.l ho.live (hdp.symm.trans q1)
      have := H'.wf.has_disj hdq.1 hd.1 hne
      have := H'.wf.uptr_ge dq
      have := H'.wf.uptr_ge d
      unfold ReallocSafe at hsafe
      simp only at q1 q2
      split at h1 <;> split at h2 <;> omega
    rw [if_neg hnov]
    refine ⟨_, rfl, ⟨s', rs', Ls', A', hm _ r.last ⟨g1, ho.frame fr, hs.frame fr, ?_⟩ ?_⟩, Result.goes (fun h => by cases h)⟩
    · intro hq
      obtain ⟨n1, n2⟩ := g3 hq
      exact ⟨⟨n1, fun i hi' => absurd hi' (by omega)⟩, fun h => n2 c.l ho.live h.symm⟩
    · intro p hp hp0
      simp [held] at hp
      rcases hp with rfl | rfl
      · left; rw [hpc]; simp [held]
      · right; exact (g3 hp0).2

/-- A step of the copy. -/
theorem RInv.copyStep (hf : C.reallocFactor ≠ 0) (h0 : MpcAlloc.Reach S C pb s0 L0 B) (H : RInv S C pb B s0 L0 r s rs Ls A)
    {c : Call} {old q i : Nat} (hpc : r.pc t = .copy c old q i) (a : Act) : StepOk S C pb B s0 L0 r t (rstep S C r t a) := by
  have h := H.pcs t
  rw [hpc] at h
  obtain ⟨hi, ho, hs, hq⟩ := h
  unfold rstep
  rw [hpc]
  simp only
  by_cases hc : q ≠ 0 ∧ i < (if old < c.n then old else c.n)
  · rw [if_pos hc]
    obtain ⟨N, hqp⟩ := hq hc.1
    have hin : i < c.n := by have := hc.2; split at this <;> omega
    have hbyte : (⟨q, c.n, decide (c.b ≤ 1)⟩ : Block).Byte (q + i) := ⟨by simp, by simp; omega⟩
    have hne : c.l ≠ ⟨q, c.n, decide (c.b ≤ 1)⟩ := by
      intro h
      exact hqp (by rw [h])
    obtain ⟨k', s', rs', Ls', A', e, H', hfr, hm⟩ := H.kmove (t := t) (a := .write (q + i) (r.k.s.w.mem (c.l.ptr + i))) hf h0
      (fun _ => ⟨_, N.live, hbyte⟩) (by
        rintro l hl u hu hp ⟨_, hT⟩
        have hT : l.Byte (q + i) := hT
        have hlne : l ≠ ⟨q, c.n, decide (c.b ≤ 1)⟩ := by
          rintro rfl
          exact H.apart u t q hu hc.1 hp (by rw [hpc]; simp [held])
        exact H.ki.disj hf h0 hl N.live hlne _ ⟨hT, hbyte⟩)
    have fr := hfr c.l ho.live (fun h => H.ki.disj hf h0 ho.live N.live hne _ ⟨h.2, hbyte⟩)
    rw [e, Outcome.ok_bind]
    have e' : k' = ({ r.k with
        s := r.k.s.setMem (fun x => if x = q + i then r.k.s.w.mem (c.l.ptr + i) else r.k.s.w.mem x),
        data := fun x => if x = q + i then some (r.k.s.w.mem (c.l.ptr + i)) else r.k.data x } : KS σ).now
          (Op.write (q + i) (r.k.s.w.mem (c.l.ptr + i))) := by
      unfold kstep at e
      rw [hi] at e
      exact (Outcome.ok.inj e).symm
    have hlive : k'.live = r.k.live := by rw [e']; rfl
    have hdata : ∀ x, k'.data x = if x = q + i then some (r.k.s.w.mem (c.l.ptr + i)) else r.k.data x := by
      intro x; rw [e']; rfl
    refine ⟨_, rfl, ⟨s', rs', Ls', A', hm _ r.last ⟨?_, ho.frame fr, hs.frame fr, fun _ => ⟨⟨?_, ?_⟩, hqp⟩⟩ ?_⟩,
      Result.goes (fun h => by cases h)⟩
    · rw [e']; exact hi
    · rw [hlive]; exact N.live
    · intro j h1 h2 h3
      rw [hdata]
      by_cases hj : j = i
      · subst hj
        rw [if_pos rfl]
        have hb : c.l.Byte (c.l.ptr + j) := ⟨by omega, by omega⟩
        have := H.ki.data c.l ho.live _ hb _ (ho.data _ hb)
        rw [this, Nat.add_sub_cancel_left]
      · rw [if_neg (by omega)]
        exact N.data j (by omega) h2 h3
    · intro p hp _
      left
      rw [hpc]
      exact hp
  · rw [if_neg hc]
    have hpos := H.ki.livePos ho.live
    obtain ⟨k', s', rs', Ls', A', e, H', hfr, hm⟩ := H.kmove (t := t) (a := .free c.l.ptr) hf h0
      (fun _ => Or.inr ⟨c.l, ho.live, rfl⟩) (by
        rintro l hl u hu hp ⟨_, hT⟩
        have hT : c.l.ptr = l.ptr := hT
        refine H.apart u t l.ptr hu (H.ki.livePos hl) hp ?_
        rw [hpc, ← hT]
        simp [held])
    rw [e, Outcome.ok_bind]
    refine ⟨_, rfl, ⟨s', rs', Ls', A', hm _ r.last ⟨?_, ?_⟩ ?_⟩, Result.goes (fun h => by cases h)⟩
    · unfold kstep kstart at e
      rw [hi] at e
      simp only at e
      rw [if_neg hpos] at e
      cases e
      rw [goto_pc]
      trivial
    · intro hq0
      obtain ⟨N, hqp⟩ := hq hq0
      have N' := N.frame (hfr _ N.live (fun h => hqp (Eq.symm h.2)))
      refine ⟨N'.live, fun j h1 h2 h3 => N'.data j ?_ h2 h3⟩
      obtain ⟨d, hd, hdp, hfit, hds, _⟩ := hs
      have := H.ki.wf.uptr_ge d
      have hge : ¬ i < (if old < c.n then old else c.n) := fun h => hc ⟨hq0, h⟩
      split at hge <;> omega
    · intro p hp _
      left
      rw [hpc]
      simp [held] at hp
      simp [held, hp]

/-- A step of the free. -/
theorem RInv.releaseStep (hf : C.reallocFactor ≠ 0) (h0 : MpcAlloc.Reach S C pb s0 L0 B) (H : RInv S C pb B s0 L0 r s rs Ls A)
    {c : Call} {q : Nat} (hpc : r.pc t = .release c q) (a : Act) : StepOk S C pb B s0 L0 r t (rstep S C r t a) := by
  have h := H.pcs t
  rw [hpc] at h
  obtain ⟨hi, hq⟩ := h
  obtain ⟨k', s', rs', Ls', A', e, H', hfr, hm⟩ := H.kmove (t := t) (a := .free 0) hf h0
      (fun h => absurd h hi.busy) (fun l _ u _ _ => noTouch hi.busy l)
  have hN : q ≠ 0 → New k' c q c.n := fun h => (hq h).frame (hfr _ (hq h).live (noTouch hi.busy _))
  unfold rstep
  rw [hpc]
  simp only
  rw [e, Outcome.ok_bind]
  rcases freeStep hi e with g | g
  · rw [if_neg (by rw [idleB_iff]; exact g.busy)]
    refine ⟨_, rfl, ⟨s', rs', Ls', A', hm _ r.last ⟨g, hN⟩ ?_⟩, Result.goes (fun h => by cases h)⟩
    intro p hp _
    left
    rw [hpc]
    exact hp
  · rw [if_pos (idleB_iff.2 g)]
    refine ⟨_, rfl, ⟨s', rs', Ls', A', hm .out _ trivial (by simp [held])⟩, ?_⟩
    intro c' hc' _
    rw [hpc] at hc'
    cases hc'
    refine ⟨q, if_pos rfl, fun h => ⟨_, (hN h).live, rfl, rfl, ?_⟩⟩
    intro j h1 h2
    refine H'.data _ (hN h).live (q + j) ⟨by simp, by simp; omega⟩ _ ((hN h).data j h2 h1 h2)

/-- Every step of the threads succeeds, keeps the invariant and gives the right result. -/
theorem RInv.step (hf : C.reallocFactor ≠ 0) (h0 : MpcAlloc.Reach S C pb s0 L0 B) (H : RInv S C pb B s0 L0 r s rs Ls A)
    {a : Act} (hv : r.Idle t → Valid B r a) : StepOk S C pb B s0 L0 r t (rstep S C r t a) := by
  cases hpc : r.pc t with
  | out =>
    unfold rstep
    rw [hpc]
    simp only
    by_cases hi : r.k.pc t = .idle
    · rw [if_pos (idleB_iff.2 hi)]
      exact H.startStep hf h0 hpc hi (hv ⟨hpc, hi⟩)
    · rw [if_neg (by rw [idleB_iff]; exact hi)]
      exact H.plainStep hf h0 hpc (fun h => absurd h hi)
  | read c => exact H.readStep hf h0 hpc a
  | alloc c old => exact H.allocStep hf h0 hpc a
  | copy c old q i => exact H.copyStep hf h0 hpc a
  | release c q => exact H.releaseStep hf h0 hpc a

/-- The invariant holds in every state that the threads reach. -/
theorem reach_inv (hf : C.reallocFactor ≠ 0) (h0 : MpcAlloc.Reach S C pb s0 L0 B) (hts : s0.c.threadSafe = true)
    (h : Reach S C B s0 L0 r) : ∃ s rs Ls A, RInv S C pb B s0 L0 r s rs Ls A := by
  induction h with
  | init =>
    obtain ⟨A, H⟩ := kinit_inv hf h0 hts
    exact ⟨_, _, _, A, H, fun _ => trivial, fun _ _ _ _ _ h => by simp [held] at h⟩
  | step _ hv e ih =>
    obtain ⟨s, rs, Ls, A, H⟩ := ih
    obtain ⟨r', e', h', _⟩ := H.step hf h0 hv
    rw [e] at e'
    cases e'
    exact h'

end CR
end MpcAlloc
