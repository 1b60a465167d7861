import Verif.ChainLemmas

/-
Initialisation of a chain and addition of memory to it.
-/

namespace MpcAlloc

variable {σ : Type}

/-- Heap without memory. -/
def emptyHeap : AHeap := ⟨[], fun _ => []⟩

theorem emptyHeap_wf {pb : Nat} (h1 : 0 < pb) (h2 : pb + 1536 < W64) : emptyHeap.WF pb where
  seg := by simp [emptyHeap]
  disj := by simp [emptyHeap]
  pool := by simp [emptyHeap]
  pbpos := h1
  pblt := h2
  flFree := by simp [emptyHeap]
  flHas := by simp [emptyHeap]
  flClass := by simp [emptyHeap]
  flAll := by simp [emptyHeap, AHeap.Has]
  flNodup := by simp [emptyHeap]

theorem initHead_other {m : Mem} {h x : Nat} (hx : x < h ∨ h + 32 ≤ x) : initHead m h x = m x := by
  unfold initHead
  unfold setPrev setNext setSize setAddrByte
  rw [writeLE_other (by omega), writeLE_other (by omega), writeLE_other (by omega), setMagic_other (by omega),
    writeLE_other (by omega)]

theorem initHead_links {m : Mem} {h : Nat} (hh : h < W64) : Links (initHead m h) h [] h := by
  unfold initHead
  refine ⟨?_, getPrev_setPrev_same hh⟩
  rw [getNext_setPrev (Or.inl rfl), getNext_setNext_same hh]

theorem initHeads_spec {m : Mem} {base : Nat} (n : Nat) (h : base + 32 * n < W64) :
    (∀ i, i < n → Links (initHeads m base n) (base + 32 * i) [] (base + 32 * i)) ∧
    ∀ x, x < base ∨ base + 32 * n ≤ x → initHeads m base n x = m x := by
  induction n with
  | zero => exact ⟨by omega, fun _ _ => rfl⟩
  | succ n ih =>
    obtain ⟨i1, i2⟩ := ih (by omega)
    refine ⟨?_, ?_⟩
    · intro i hi
      by_cases e : i = n
      · subst e; exact initHead_links (by omega)
      · have g : AgreeOn (initHeads m base n) (initHeads m base (n + 1)) (base + 32 * i) 32 :=
          fun x h1 h2 => initHead_other (by omega)
        refine links_frame (i1 i (by omega)) ?_ ?_
        · intro k hk
          rw [List.mem_singleton] at hk; subst hk
          exact readLE_congr (g.sub (by omega) (by omega))
        · intro k hk
          rw [List.nil_append, List.mem_singleton] at hk; subst hk
          exact readLE_congr (g.sub (by omega) (by omega))
    · intro x hx
      rw [initHeads, initHead_other (by omega), i2 x (by omega)]

theorem initNb_freeSizes : initNb freeSizes = .ok 44 := by decide +kernel

theorem chainBaseInit_ok (w : World σ) {addr pb : Nat} (ts nm nr : Bool) (h1 : 0 < pb) (h2 : pb + 1536 < W64) :
    ∃ s : CS σ, chainBaseInit w addr pb ts nm nr = .ok s ∧ ChainInv pb s emptyHeap ∧
      s.w.regs = w.regs ∧ s.w.src = w.src ∧
      s.c.addr = addr ∧ s.c.threadSafe = ts ∧ s.c.noMerge = nm ∧ s.c.noRegion = nr ∧ s.c.hasSrc = false ∧
      s.c.base = 0 ∧ s.c.cnt = 0 ∧ (s.c.handler = false ∧ s.c.calls = 0) ∧ s.c.rfqHead = 0 ∧ s.c.rfqTail = 0 ∧
      ∀ x, ¬ PoolAt pb x → s.w.mem x = w.mem x := by
  obtain ⟨i1, i2⟩ := initHeads_spec (m := w.mem) (base := pb) 48 (by omega)
  have e : threadPoolInit w.mem pb freeSizes true =
      .ok ({ mem := initHeads w.mem pb 48, status := fun _ => false }, stdPool pb) := by
    unfold threadPoolInit
    rw [initNb_freeSizes]
    rfl
  unfold chainBaseInit
  rw [e, Outcome.ok_bind]
  refine ⟨_, rfl, ⟨rfl, ⟨?_, ?_, ?_⟩, rfl, rfl, fun h => absurd rfl h⟩, rfl, rfl, rfl, rfl, rfl, rfl, rfl, rfl, rfl,
    ⟨rfl, rfl⟩, rfl, rfl, ?_⟩
  · intro s hs; simp [emptyHeap] at hs
  · intro i hi; exact i1 i hi
  · intro i _; simp [CS.heap, emptyHeap]
  · intro x hx
    exact i2 x (by unfold PoolAt at hx; omega)

/-- Conditions under which a bloc can be registered in the regions. -/
structure RegFree (R : Regions) (b sz : Nat) : Prop where
  ok : R.OK
  lt : b + sz ≤ 281474976710656
  free : ∀ k, b / MB2 ≤ k → k < b / MB2 + (sz + MB2 - 1) / MB2 → R.ent k = 0

/-- Regions after the registration of a bloc. -/
def RegDone (noRegion : Bool) (R R' : Regions) (b sz : Nat) : Prop :=
  if noRegion then R' = R
  else R'.OK ∧ R'.ent = entSet R.ent (b / MB2) (b / MB2 + (sz + MB2 - 1) / MB2) b

theorem prepareBloc_ok {pb : Nat} {A : AHeap} {s : CS σ} {b sz : Nat} (W : A.WF pb)
    (H : MemOK (stdPool pb) s.heap A) (F : FreshSeg pb A b sz) (h1 : hSize s.w.mem b = sz)
    (h2 : (s.w.mem (b + 15)).toNat = 133) (hr : s.c.noRegion = false → RegFree s.w.regs b sz) :
    ∃ m R, prepareBloc s b = .ok ({ w := { s.w with mem := m, regs := R }, c := s.c }, b + 47) ∧
      MemOK (stdPool pb) ⟨m, s.c.status⟩ ((addCtx A b sz).fill [addCk b sz] A.fl) ∧
      RegDone s.c.noRegion s.w.regs R b sz ∧
      (s.c.noRegion = false → readLE m (b + 16) 8 = s.c.addr % W64) ∧
      ∀ x, x < b ∨ b + sz ≤ x → m x = s.w.mem x := by
  have hpos := F.pos
  have hge := F.ge
  have hlt := F.lt
  have hlt56 := F.lt56
  have hdS := F.dvdS
  have e1 : add64 b 32 = b + 32 := add64_eq (by omega)
  have e2 : sub64 (sub64 sz 32) 16 = sz - 48 := by
    rw [sub64_eq (a := sz) (by omega) (by omega), sub64_eq (by omega) (by omega)]; omega
  have e3 : sub64 (add64 b sz) 16 = b + sz - 16 := by
    rw [add64_eq (by omega), sub64_eq (by omega) (by omega)]
  have e4 : largeToV (b + 32) = b + 47 := by rw [largeToV_eq (by omega)]
  generalize hm1 : setupLargeHeader s.w.mem (b + 32) (sz - 48) 0 = m1
  generalize hm2 : createStopper m1 (b + sz - 16) (b + 32) = m2
  have f1 : ∀ x, x < b + 32 ∨ b + 48 ≤ x → m1 x = s.w.mem x := by
    intro x hx; rw [← hm1]; exact setupLargeHeader_other (by omega)
  have f2 : ∀ x, x < b + sz - 16 ∨ b + sz ≤ x → m2 x = m1 x := by
    intro x hx; rw [← hm2]; exact createStopper_other (by omega)
  have k3 : HdrAt m1 (b + 32) (sz - 48) 0 1 := by
    have := setupLargeHeader_hdr s.w.mem (b + 32) (sz - 48) 0
    rw [hm1, Nat.mod_eq_of_lt (by omega)] at this
    simpa [prevField] using this
  have k4 : HdrAt m2 (b + sz - 16) 0 (sz - 48) 1 := by
    have := createStopper_hdr m1 (b + sz - 16) (b + 32)
    rw [hm2, prevField_eq (by omega) (by omega) (by omega) (by omega)] at this
    have e : b + sz - 16 - (b + 32) = sz - 48 := by omega
    rwa [e] at this
  -- any later memory that differs only in the chain field
  have fin : ∀ m' : Mem, (∀ x, x < b + 16 ∨ b + 24 ≤ x → m' x = m2 x) →
      MemOK (stdPool pb) ⟨m', s.c.status⟩ ((addCtx A b sz).fill [addCk b sz] A.fl) := by
    intro m' hm'
    have := addSeg_mem (h := s.heap) (m' := m') W F H ?_ ?_ ?_ ?_ ?_
    · exact this
    · intro x hx; rw [hm' x (by omega), f2 x (by omega), f1 x (by omega)]; rfl
    · rw [← h1]
      refine readLE_congr (fun x g1 g2 => ?_)
      rw [hm' x (by omega), f2 x (by omega), f1 x (by omega)]
    · rw [hm' _ (by omega), f2 _ (by omega), f1 _ (by omega)]; exact h2
    · refine k3.congr ?_ ?_ <;> intro x g1 g2 <;> rw [hm' x (by omega), f2 x (by omega)]
    · refine k4.congr ?_ ?_ <;> intro x g1 g2 <;> rw [hm' x (by omega)]
  unfold prepareBloc
  rw [if_neg (by omega)]
  simp only [setupChunk]
  rw [h1, e1, e2, e3, e4, hm1, hm2]
  cases hnr : s.c.noRegion with
  | true =>
    rw [if_pos rfl]
    refine ⟨m2, s.w.regs, rfl, fin m2 (fun _ _ => rfl), by simp [RegDone], by simp, ?_⟩
    intro x hx
    rw [f2 x (by omega), f1 x (by omega)]
  | false =>
    rw [if_neg (by simp)]
    have hrf := hr hnr
    have hs2 : hSize m2 b = sz := by
      rw [← h1]
      refine readLE_congr (fun x g1 g2 => ?_)
      rw [f2 x (by omega), f1 x (by omega)]
    obtain ⟨R', e5, hok, hent⟩ := regionSetEntry_ok (chain := s.c.addr) hrf.ok hs2 hrf.lt hrf.free
    rw [e5, Outcome.ok_bind]
    refine ⟨_, R', rfl, fin _ ?_, ?_, ?_, ?_⟩
    · intro x hx; exact writeLE_other (by omega)
    · unfold RegDone; rw [if_neg (by simp)]; exact ⟨hok, hent⟩
    · intro _; exact readLE_writeLE_same _ _ _ _
    · intro x hx
      simp only
      rw [writeLE_other (by omega), f2 x (by omega), f1 x (by omega)]

/-- Abstract effect of adding a free segment. -/
structure AddRel (pb : Nat) (A : AHeap) (b sz : Nat) (A' : AHeap) : Prop where
  wf : A'.WF pb
  used : ∀ x, A'.Used x ↔ A.Used x
  shape : A'.shape = A.shape ++ [(b, sz)]
  has : A'.Has ⟨b + 32, sz - 48, .free⟩
  noAdj : A.NoAdj → A'.NoAdj
  free : ∀ x, A'.FreeAt x → A.FreeAt x ∨ (b ≤ x ∧ x < b + sz)
  all : ∀ x, A'.Has x → A.Has x ∨ x = ⟨b + 32, sz - 48, .free⟩

theorem Ctx.used_add {A : AHeap} {b sz : Nat} (x : Ck) (h : ∃ p, x.st = .used p) :
    (addCtx A b sz).Rest x ↔ A.Used x := by
  unfold Ctx.Rest addCtx AHeap.Used AHeap.Has
  simp [h]

theorem noAdj_addCtx {A : AHeap} {b sz : Nat} (fl : Nat → List Ck) (h : A.NoAdj) :
    ((addCtx A b sz).fill [addCk b sz] fl).NoAdj := by
  rw [Ctx.noAdj]
  refine ⟨by simp [addCtx], ?_⟩
  intro s hs
  simp [addCtx] at hs
  exact h s hs

/-- Preparation of a bloc followed by its insertion in the free lists. -/
theorem addFree_ok {pb : Nat} {A : AHeap} {b sz : Nat} (W : A.WF pb) (F : FreshSeg pb A b sz) (atEnd : Bool) :
    ∃ A', AddRel pb A b sz A' ∧
      ∀ h, MemOK (stdPool pb) h ((addCtx A b sz).fill [addCk b sz] A.fl) →
        ∃ h', freeListInsert (stdPool pb) h (vLarge (b + 47)) atEnd = .ok h' ∧ MemOK (stdPool pb) h' A' ∧
          ∀ x, ¬ PoolAt pb x → ¬ A.FreeAt x → (x < b + 32 ∨ b + sz ≤ x) → h'.mem x = h.mem x := by
  have W1 := wf_addSeg W F
  have hge := F.ge
  have hlt := F.lt
  obtain ⟨A', R, hs⟩ := insert_rel W1 (by simp [addCk]) atEnd
  have hfree : ∀ x, ((addCtx A b sz).fill [addCk b sz] A.fl).FreeAt x → A.FreeAt x := by
    rintro x ⟨c, hc, hf, h1, h2⟩
    refine ⟨c, ?_, hf, h1, h2⟩
    rw [Ctx.has] at hc
    rcases hc with hc | hc
    · rw [List.mem_singleton] at hc; subst hc; simp [addCk] at hf
    · unfold Ctx.Rest addCtx at hc
      simpa [AHeap.Has] using hc
  refine ⟨A', ⟨R.wf, ?_, ?_, R.has, ?_, ?_, ?_⟩, ?_⟩
  · intro x
    rw [R.used]
    constructor
    · rintro ⟨h1, h2⟩; exact (Ctx.used_add x h2).1 h1
    · intro h; exact ⟨(Ctx.used_add x h.2).2 h, h.2⟩
  · rw [R.shape]; simp [AHeap.shape, Ctx.fill, addCtx, Ctx.seg]
  · intro h
    exact R.noAdj (by simp [Ctx.Fence, addCtx]) (noAdj_addCtx _ h)
  · intro x hx
    rcases R.free x hx with h | ⟨h1, h2⟩
    · exact Or.inl (hfree x h)
    · simp only [addCk] at h1 h2
      exact Or.inr ⟨by omega, by omega⟩
  · intro x hx
    rcases R.all x hx with h | h
    · exact Or.inr h
    · unfold Ctx.Rest addCtx at h
      exact Or.inl (by simpa [AHeap.Has] using h)
  · intro h hM
    obtain ⟨h', e1, M1, f1⟩ := hs h hM
    refine ⟨h', ?_, M1, ?_⟩
    · have : vLarge (b + 47) = b + 32 := vLarge_eq (h := b + 32) (by omega)
      rw [this]; exact e1
    · intro x h1 h2 h3
      exact f1 x h1 (fun h => h2 (hfree x h)) (by simp only [addCk]; omega)

theorem setupMacroBloc_spec (m : Mem) {b sz : Nat} (h : sz < W56) :
    hSize (setupMacroBloc m b sz) b = sz ∧ ((setupMacroBloc m b sz) (b + 15)).toNat = 133 ∧
      ∀ x, x < b ∨ b + 24 ≤ x → setupMacroBloc m b sz x = m x := by
  have k := setupLargeHeader_hdr m b sz 0
  have k' : HdrAt (setupMacroBloc m b sz) b (sz % W56) (prevField b 0) 1 := by
    unfold setupMacroBloc
    refine k.congr ?_ ?_ <;> intro x g1 g2 <;> exact writeLE_other (by omega)
  refine ⟨by rw [k'.size]; exact Nat.mod_eq_of_lt h, k'.info, ?_⟩
  intro x hx
  unfold setupMacroBloc
  rw [writeLE_other (by omega), setupLargeHeader_other (by omega)]

/-- Chain state after a refill. -/
def refilled (s : CS σ) (h : Heap) (R : Regions) (b sz : Nat) : CS σ where
  w := { s.w with mem := h.mem, regs := R }
  c := { s.c with status := h.status, base := if s.c.base = 0 then b else s.c.base,
                  end_ := if s.c.base = 0 then b + sz else s.c.end_, cnt := s.c.cnt + 1 }

/-- Refill of a chain with a buffer. -/
theorem refill_ok {pb : Nat} {A : AHeap} {b sz : Nat} (W : A.WF pb) (F : FreshSeg pb A b sz) :
    ∃ A', AddRel pb A b sz A' ∧
      ∀ s : CS σ, ChainInv pb s A → (s.c.noRegion = false → RegFree s.w.regs b sz) →
        ∃ h' R, userRefill s b sz = .ok (refilled s h' R b sz) ∧
          MemOK (stdPool pb) h' A' ∧ RegDone s.c.noRegion s.w.regs R b sz ∧
          (s.c.noRegion = false → readLE h'.mem (b + 16) 8 = s.c.addr % W64) ∧
          ∀ x, ¬ PoolAt pb x → ¬ A.FreeAt x → (x < b ∨ b + sz ≤ x) → h'.mem x = s.w.mem x := by
  obtain ⟨A', R, hs⟩ := addFree_ok W F false
  refine ⟨A', R, ?_⟩
  intro s I hr
  have hpos := F.pos
  have hge := F.ge
  have hlt := F.lt
  obtain ⟨m1, m2, m3⟩ := setupMacroBloc_spec s.w.mem (b := b) F.lt56
  have hM0 : MemOK (stdPool pb) (s.setMem (setupMacroBloc s.w.mem b sz)).heap A := by
    refine I.mem.congr W ?_
    intro x hx
    apply m3
    rcases hx with ⟨h5, h6⟩ | ⟨⟨g, hg, h5, h6⟩, _⟩
    · have := F.pool; omega
    · have := F.disj g hg; omega
  obtain ⟨m, R', e1, M1, hreg, hown, f1⟩ := prepareBloc_ok (s := s.setMem (setupMacroBloc s.w.mem b sz)) W hM0 F m1 m2 hr
  obtain ⟨h', e2, M2, f2⟩ := hs _ M1
  have hpool := F.pool
  refine ⟨h', R', ?_, M2, hreg, fun hnr => ?_, ?_⟩
  rotate_left
  · refine Eq.trans ?_ (hown hnr)
    refine readLE_congr (fun x hx1 hx2 => f2 x (by unfold PoolAt; omega) ?_ (by omega))
    rintro ⟨c, ⟨g, hg, hc⟩, _, h5, h6⟩
    have := F.disj g hg
    have := (W.seg g hg).bounds hc
    omega
  rotate_left
  · unfold userRefill
    rw [if_neg (by omega), if_neg (by omega)]
    rw [if_pos (by omega)]
    simp only
    rw [e1, Outcome.ok_bind]
    have hp : s.c.pool = stdPool pb := I.pool
    simp only [CS.setMem, CS.heap] at e2 ⊢
    rw [hp, e2, Outcome.ok_bind, Outcome.pure_eq, Outcome.ok_bind, add64_eq (by omega)]
    by_cases hb : s.c.base = 0
    · simp [CS.setHeap, refilled, hb]
    · simp [CS.setHeap, refilled, hb]
  · intro x h1 h2 h3
    exact (f2 x h1 h2 (by omega)).trans ((f1 x h3).trans (m3 x (by omega)))

end MpcAlloc
