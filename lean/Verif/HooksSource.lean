import Verif.HooksBlocs
import Verif.PropsConcSource

/-
The events of the blocks whatever the state and the source, and the observer over a chain fed by the light source.
-/

namespace MpcAlloc.Hooks

/-- The events of the blocks: allocation or free, pointer and size. -/
def blocks : List Ev → List (Bool × Nat × Nat)
  | [] => []
  | .alloc _ _ p z _ :: l => (true, p, z) :: blocks l
  | .hugeAlloc _ _ p z _ :: l => (true, p, z) :: blocks l
  | .free _ p z :: l => (false, p, z) :: blocks l
  | .hugeFree _ p z :: l => (false, p, z) :: blocks l
  | _ :: l => blocks l

theorem blocks_append (l l' : List Ev) : blocks (l ++ l') = blocks l ++ blocks l' := by
  induction l with
  | nil => rfl
  | cons e l ih => cases e <;> simp [blocks, ih]

/-- The observer only looks at the events of the blocks. -/
theorem observe_none {t : List (Nat × Nat)} : ∀ {e : List Ev}, blocks e = [] → observe t e = some t
  | [], _ => rfl
  | x :: l, h => by
    cases x <;> simp only [blocks, reduceCtorEq] at h <;> exact observe_none (e := l) h

theorem observe_alloc {t : List (Nat × Nat)} {p z : Nat} (hp : p ∉ t.map Prod.fst) :
    ∀ {e : List Ev}, blocks e = [(true, p, z)] → observe t e = some ((p, z) :: t)
  | [], h => by simp [blocks] at h
  | x :: l, h => by
    have hany : t.any (fun x => x.1 == p) = false := by
      rw [List.any_eq_false]
      intro y hy he
      exact hp (List.mem_map.2 ⟨y, hy, by simpa using he⟩)
    cases x
    case alloc c r p' z' b =>
      simp only [blocks, List.cons.injEq, Prod.mk.injEq, true_and] at h
      obtain ⟨⟨rfl, rfl⟩, h⟩ := h
      simp only [observe, see, hany, Bool.false_eq_true, if_false, Option.bind_some]
      exact observe_none h
    case hugeAlloc c r p' z' b =>
      simp only [blocks, List.cons.injEq, Prod.mk.injEq, true_and] at h
      obtain ⟨⟨rfl, rfl⟩, h⟩ := h
      simp only [observe, see, hany, Bool.false_eq_true, if_false, Option.bind_some]
      exact observe_none h
    case free => simp [blocks] at h
    case hugeFree => simp [blocks] at h
    all_goals exact observe_alloc hp (e := l) h

theorem observe_free {t : List (Nat × Nat)} {p z : Nat} (hp : (p, z) ∈ t) :
    ∀ {e : List Ev}, blocks e = [(false, p, z)] → observe t e = some (t.filter (fun x => x.1 != p))
  | [], h => by simp [blocks] at h
  | x :: l, h => by
    have hany : t.contains (p, z) = true := by simpa using hp
    cases x
    case free c p' z' =>
      simp only [blocks, List.cons.injEq, Prod.mk.injEq, true_and] at h
      obtain ⟨⟨rfl, rfl⟩, h⟩ := h
      simp only [observe, see, hany, if_true, Option.bind_some]
      exact observe_none h
    case hugeFree c p' z' =>
      simp only [blocks, List.cons.injEq, Prod.mk.injEq, true_and] at h
      obtain ⟨⟨rfl, rfl⟩, h⟩ := h
      simp only [observe, see, hany, if_true, Option.bind_some]
      exact observe_none h
    case alloc => simp [blocks] at h
    case hugeAlloc => simp [blocks] at h
    all_goals exact observe_free hp (e := l) h

variable {σ : Type} {H : Tab} {S : Source σ} {C : Config} {s s' : CS σ} {e : List Ev}

theorem requestMemH_blocks {n v : Nat} (h : requestMemH H S s n = .ok (s', v, e)) : blocks e = [] := by
  unfold requestMemH at h
  split at h
  · cases h; rfl
  · obtain ⟨r, _, h2⟩ := Outcome.bind_eq_ok h
    obtain ⟨q, _, h4⟩ := Outcome.bind_eq_ok h2
    cases h4
    unfold emit
    split <;> rfl

theorem refillMemH_blocks {n : Nat} {b : Bool} (h : refillMemH H S s n = .ok (s', b, e)) : blocks e = [] := by
  unfold refillMemH at h
  obtain ⟨⟨t, v, e1⟩, h1, h2⟩ := Outcome.bind_eq_ok h
  have := requestMemH_blocks h1
  split at h2
  · cases h2; exact this
  · obtain ⟨h', h3, h4⟩ := Outcome.bind_eq_ok h2
    cases h4
    exact this

theorem searchH_blocks {n c : Nat} (h : searchH H S s n = .ok (s', c, e)) : blocks e = [] := by
  unfold searchH at h
  obtain ⟨f, h1, h2⟩ := Outcome.bind_eq_ok h
  split at h2
  · obtain ⟨⟨t, b, e1⟩, h3, h4⟩ := Outcome.bind_eq_ok h2
    have := refillMemH_blocks h3
    cases b with
    | true =>
      rw [if_pos rfl] at h4
      obtain ⟨g, h5, h6⟩ := Outcome.bind_eq_ok h4
      cases h6
      exact this
    | false =>
      rw [if_neg (by simp)] at h4
      cases h4
      exact this
  · cases h2
    rfl

theorem takeH_blocks {c n v : Nat} (h : takeH H s c n = .ok (s', v, e)) : blocks e = [] := by
  unfold takeH at h
  split at h
  · cases h
  · obtain ⟨q, h1, h2⟩ := Outcome.bind_eq_ok h
    split at h2
    · cases h2
    · split at h2
      · obtain ⟨h', h3, h4⟩ := Outcome.bind_eq_ok h2
        obtain ⟨ev, h5, h6⟩ := Outcome.bind_eq_ok h4
        cases h6
        unfold splitHook at h5
        split at h5
        · obtain ⟨p, _, h7⟩ := Outcome.bind_eq_ok h5
          cases h7; rfl
        · cases h5; rfl
      · cases h2
        rfl

theorem allocLockedH_blocks {n v : Nat} (h : allocLockedH H S s n = .ok (s', v, e)) : blocks e = [] := by
  unfold allocLockedH at h
  obtain ⟨⟨t, c, e1⟩, h1, h2⟩ := Outcome.bind_eq_ok h
  have := searchH_blocks h1
  split at h2
  · cases h2; exact this
  · obtain ⟨⟨u, w, e2⟩, h3, h4⟩ := Outcome.bind_eq_ok h2
    have h5 := takeH_blocks h3
    cases h4
    simp only at this h5 ⊢
    rw [blocks_append, this, h5]
    rfl

theorem largeToV_lt (a : Nat) : largeToV a < W64 := Nat.mod_lt _ (by decide)

theorem regBloc_v {s s' : CS σ} {b v : Nat} (m : Mem) (v0 : Nat) (h : (if s.c.noRegion = true then Outcome.ok (s.setMem m, v0)
  else do
    let r ← regionSetEntry m s.w.regs s.c.addr b
    Outcome.ok ({ s with w := { s.w with mem := r.1, regs := r.2 } }, v0)) = .ok (s', v)) : v = v0 := by
  split at h
  · cases h
    rfl
  · obtain ⟨⟨m, R⟩, h1, h2⟩ := Outcome.bind_eq_ok h
    cases h2
    rfl

theorem prepareBloc_lt {b v : Nat} (h : prepareBloc s b = .ok (s', v)) : v < W64 := by
  unfold prepareBloc at h
  split at h
  · cases h; decide
  · simp only [setupChunk, Outcome.pure_eq] at h
    rw [regBloc_v _ _ h]
    exact largeToV_lt _

theorem requestMemH_lt {n v : Nat} (h : requestMemH H S s n = .ok (s', v, e)) : v < W64 := by
  unfold requestMemH at h
  split at h
  · cases h; decide
  · obtain ⟨r, _, h2⟩ := Outcome.bind_eq_ok h
    obtain ⟨⟨t, w⟩, h3, h4⟩ := Outcome.bind_eq_ok h2
    have := prepareBloc_lt h3
    have h4 := Outcome.ok.inj h4
    simp only [Prod.mk.injEq] at h4
    rw [← h4.2.1]
    exact this

theorem splitFreeBloc_lt {m m' : Mem} {v n v' r : Nat} (hv : v < W64) (h : splitFreeBloc m v n = .ok (m', v', r)) : v' < W64 := by
  unfold splitFreeBloc at h
  simp only at h
  split at h
  · obtain ⟨_, _, h⟩ := Outcome.bind_eq_ok h
    obtain ⟨_, _, h⟩ := Outcome.bind_eq_ok h
    simp only [setupChunk] at h
    obtain ⟨_, _, h⟩ := Outcome.bind_eq_ok h
    obtain ⟨_, _, h⟩ := Outcome.bind_eq_ok h
    have h := Outcome.ok.inj h
    simp only [Prod.mk.injEq] at h
    rw [← h.2.1]
    exact largeToV_lt _
  · have h := Outcome.ok.inj h
    simp only [Prod.mk.injEq] at h
    rw [← h.2.1]
    exact hv

theorem takeH_lt {c n v : Nat} (h : takeH H s c n = .ok (s', v, e)) : v < W64 := by
  unfold takeH at h
  split at h
  · cases h
  · obtain ⟨q, h1, h2⟩ := Outcome.bind_eq_ok h
    have := splitFreeBloc_lt (largeToV_lt _) h1
    split at h2
    · cases h2
    · split at h2
      · obtain ⟨h', h3, h4⟩ := Outcome.bind_eq_ok h2
        obtain ⟨ev, h5, h6⟩ := Outcome.bind_eq_ok h4
        cases h6
        exact this
      · cases h2
        exact this

theorem allocLockedH_lt {n v : Nat} (h : allocLockedH H S s n = .ok (s', v, e)) : v < W64 := by
  unfold allocLockedH at h
  obtain ⟨⟨t, c, e1⟩, h1, h2⟩ := Outcome.bind_eq_ok h
  split at h2
  · cases h2; decide
  · obtain ⟨⟨u, w, e2⟩, h3, h4⟩ := Outcome.bind_eq_ok h2
    have h5 := takeH_lt h3
    cases h4
    exact h5

/-- The chunk that serves a request of `N` bytes, boundary included, before the alignment of its pointer: `v` in the state `u`,
which is `u'` once the lock is released. -/
def Got (S : Source σ) (s : CS σ) (N : Nat) (u u' : CS σ) (v : Nat) : Prop :=
  if isHuge s.c N then requestMem S s N = .ok (u, v) ∧ u' = u
  else ∃ s1, lockIf s = .ok s1 ∧ allocLocked S s1 N = .ok (u, v) ∧ unlockIf u = .ok u'

theorem padAndReturn_zero (b : Nat) : (padAndReturn s 0 b).2 = 0 := by
  unfold padAndReturn setupChunkPadded
  simp

/-- The event of an allocation, whatever the state and the source. -/
theorem allocAlignH_blocks (hA : H.alloc = true) (hG : H.hugeAlloc = true) {b n r : Nat} (hb : b + 8 ≤ W64)
    (h : allocAlignH H S s b n = .ok (s', r, e)) :
    (r = 0 ∧ blocks e = []) ∨ ∃ u u' v, v ≠ 0 ∧ v < W64 ∧ Got S s (if b > 1 then add64 n b else n) u u' v ∧
      padAndReturn u' v b = (s', r) ∧ u'.w = u.w ∧ blocks e = [(true, r, getSize u.w.mem v)] := by
  unfold allocAlignH at h
  split at h
  · cases h
  · split at h
    · cases h; exact Or.inl ⟨rfl, rfl⟩
    · simp only at h
      generalize (if b > 1 then add64 n b else n) = N at h
      split at h
      · rename_i hh
        obtain ⟨⟨t, v, e1⟩, h1, h2⟩ := Outcome.bind_eq_ok h
        obtain ⟨⟨u, e2⟩, h3, h4⟩ := Outcome.bind_eq_ok h2
        have k := requestMemH_blocks h1
        unfold hugeHook at h3
        rw [if_pos hG] at h3
        split at h3
        · cases h3
        · rename_i hv
          cases h3
          rw [padAndReturn_again hb] at h4
          have hr := requestMemH_er H S s N
          rw [h1] at hr
          refine Or.inr ⟨t, t, v, hv, requestMemH_lt h1, ?_, ?_, rfl, ?_⟩
          · unfold Got
            rw [if_pos hh]
            exact ⟨hr.symm, rfl⟩
          · simp only at h4
            have := Outcome.ok.inj h4
            simp only [Prod.mk.injEq] at this
            rw [← this.1, ← this.2.1]
          · have := Outcome.ok.inj h4
            simp only [Prod.mk.injEq] at this
            obtain ⟨_, e4, e5⟩ := this
            rw [← e5, blocks_append]
            rw [k, hookPad_ptr, ← e4]
            rfl
      · rename_i hh
        obtain ⟨s1, h1, h2⟩ := Outcome.bind_eq_ok h
        obtain ⟨⟨u, v, e1⟩, h3, h4⟩ := Outcome.bind_eq_ok h2
        have k := allocLockedH_blocks h3
        have er := allocLockedH_er h3
        simp only at h4 k
        split at h4
        · obtain ⟨u', h5, h6⟩ := Outcome.bind_eq_ok h4
          have := Outcome.ok.inj h6
          simp only [Prod.mk.injEq] at this
          obtain ⟨_, e4, e5⟩ := this
          exact Or.inl ⟨e4.symm, by rw [← e5]; exact k⟩
        · rename_i hv
          have tl := allocHook_tail H u (v := v) (n := N) hb
          obtain ⟨u2, h5, h6⟩ := Outcome.bind_eq_ok h4
          rw [h5, Outcome.ok_bind] at tl
          obtain ⟨u', h7, h8⟩ := Outcome.bind_eq_ok tl.symm
          have hw := unlockIf_mem h7
          have := Outcome.ok.inj h6
          simp only [Prod.mk.injEq] at this
          obtain ⟨e3, e4, e5⟩ := this
          have h8 := Outcome.ok.inj h8
          refine Or.inr ⟨u, u', v, hv, allocLockedH_lt h3, ?_, ?_, hw, ?_⟩
          · unfold Got
            rw [if_neg hh]
            exact ⟨s1, h1, er, h7⟩
          · rw [h8, ← e3, ← e4]
          · rw [← e5, blocks_append, k]
            unfold allocHook
            rw [if_pos hA]
            simp only [List.nil_append, blocks]
            rw [hookPad_ptr, ← e4, ← h8]
            unfold padAndReturn
            rw [hw]

theorem freeMacroBlocH_blocks {v : Nat} (h : freeMacroBlocH H S s v = .ok (s', e)) : blocks e = [] := by
  unfold freeMacroBlocH at h
  obtain ⟨t, h1, h2⟩ := Outcome.bind_eq_ok h
  split at h2
  · cases h2; rfl
  · obtain ⟨a, _, h3⟩ := Outcome.bind_eq_ok h2
    cases h3
    unfold emit
    split <;> rfl

theorem freeLockedH_blocks {v : Nat} (h : freeLockedH H S s v = .ok (s', e)) : blocks e = [] := by
  unfold freeLockedH at h
  obtain ⟨_, _, h2⟩ := Outcome.bind_eq_ok h
  obtain ⟨⟨t, v', e1⟩, h3, h4⟩ := Outcome.bind_eq_ok h2
  have k : blocks e1 = [] := by
    unfold mergeH at h3
    obtain ⟨q, _, h5⟩ := Outcome.bind_eq_ok h3
    split at h5
    · obtain ⟨p, _, h6⟩ := Outcome.bind_eq_ok h5
      cases h6; rfl
    · cases h5; rfl
  split at h4
  · obtain ⟨⟨u, e2⟩, h5, h6⟩ := Outcome.bind_eq_ok h4
    have := freeMacroBlocH_blocks h5
    cases h6
    simp only at this ⊢
    rw [blocks_append, k, this]
    rfl
  · obtain ⟨h', h5, h6⟩ := Outcome.bind_eq_ok h4
    cases h6
    exact k

/-- The event of a free, whatever the state and the source. -/
theorem chainFreeH_blocks (hF : H.free = true) (hG : H.hugeFree = true) {p : Nat} (h : chainFreeH H S C s p = .ok (s', e)) :
    (s' = s ∧ blocks e = [] ∧ (p = 0 ∨ getChunkUnpadded s.w.mem p = .ok 0)) ∨
      ∃ z, ChunkSize s.w.mem p z ∧ blocks e = [(false, p, z)] := by
  unfold chainFreeH at h
  split at h
  · cases h
  · split at h
    · rename_i hp
      cases h; exact Or.inl ⟨rfl, rfl, Or.inl hp⟩
    · obtain ⟨v, h1, h2⟩ := Outcome.bind_eq_ok h
      split at h2
      · rename_i hv
        split at h2
        · cases h2
        · cases h2; exact Or.inl ⟨rfl, rfl, Or.inr (by rw [h1, hv])⟩
      · right
        split at h2
        · cases h2
        · split at h2
          · obtain ⟨⟨u, e2⟩, h5, h6⟩ := Outcome.bind_eq_ok h2
            have := freeMacroBlocH_blocks h5
            cases h6
            refine ⟨_, ⟨v, h1, rfl⟩, ?_⟩
            simp only at this ⊢
            rw [blocks_append, this]
            simp [emit, hG, blocks]
          · obtain ⟨s1, h3, h4⟩ := Outcome.bind_eq_ok h2
            obtain ⟨⟨u, e2⟩, h5, h6⟩ := Outcome.bind_eq_ok h4
            obtain ⟨s3, h7, h8⟩ := Outcome.bind_eq_ok h6
            have := freeLockedH_blocks h5
            cases h8
            refine ⟨_, ⟨v, h1, rfl⟩, ?_⟩
            simp only at this ⊢
            rw [blocks_append, this]
            simp [emit, hF, blocks]

/-! ## A chain fed by the light source -/

open OnNode

theorem aligned_req {b n : Nat} (hn : n ≠ 0) : reqSize b n = alignedSize b n := by
  unfold reqSize alignedSize
  rw [if_neg hn]
  split <;> omega

theorem psize_fits {N : Nat} (h : PSize N) : N + 48 + MB2 ≤ W64 ∧ Fits N := by
  refine ⟨h.1, ?_⟩
  have hM : MB2 = 2097152 := rfl
  have := calc_eq (n := N) (by have := h.1; omega)
  have h2 := h.2
  unfold Fits blocSize
  omega

/-- A chunk that serves `N` bytes without boundary. -/
theorem Got.run {C : Config} {pb : Nat} {s u u' : CS Light} {A : AHeap} {O L : List (Nat × Nat)} {P : Res} {N v : Nat}
    (I : SInv pb s A O L P) (hN : N ≠ 0) (hv : v ≠ 0) (h : Got (lightSource C) s N u u' v) :
    allocAlign (lightSource C) s 0 N = .ok (u', chunkBody v) := by
  have e0 : ∀ w : CS Light, padAndReturn w v 0 = (w, chunkBody v) := by
    intro w
    unfold padAndReturn
    rw [if_neg (by omega)]
    simp only
    rw [if_neg hv]
    rfl
  unfold allocAlign
  rw [if_neg (by simp [I.ch.dead]), if_neg hN]
  simp only
  rw [if_neg (show ¬ 0 > 1 by omega)]
  unfold Got at h
  split at h
  · rename_i hh
    rw [if_pos hh, h.1, Outcome.ok_bind, h.2]
    simp only [Outcome.pure_eq]
    rw [e0]
  · rename_i hh
    obtain ⟨s1, h1, h2, h3⟩ := h
    rw [if_neg hh, h1, Outcome.ok_bind, h2, Outcome.ok_bind]
    simp only
    rw [h3, Outcome.ok_bind, if_neg hv, Outcome.pure_eq, e0]

/-- An allocation on a chain fed by the light source: its event has the size of the chunk. -/
theorem salloc_ev {C : Config} {pb : Nat} {s s' : CS Light} {A : AHeap} {O L : List (Nat × Nat)} {P : Res} {b n r : Nat} {e : List Ev}
    (hA : H.alloc = true) (hG : H.hugeAlloc = true) (I : SInv pb s A O L P) (hb : GoodBound b) (hn : n ≠ 0)
    (hsz : PSize (reqSize b n)) (h : allocAlignH H (lightSource C) s b n = .ok (s', r, e)) :
    ∃ d A' L', r = d.uptr ∧ SAlloc pb s A O L P b n d s' A' L' ∧ blocks e = [(true, r, d.size)] := by
  rw [aligned_req hn] at hsz
  obtain ⟨hlt, hfit⟩ := psize_fits hsz
  have hal : alignedSize b n = n + (if 1 < b then b else 0) := by unfold alignedSize; split <;> omega
  have hb8 : b + 8 ≤ W64 := by
    have hM : MB2 = 2097152 := rfl
    split at hal <;> omega
  have hN : (if b > 1 then add64 n b else n) = alignedSize b n := by
    unfold alignedSize at hlt ⊢
    split
    · rw [if_pos (by omega)] at hlt
      exact add64_eq (by omega)
    · rfl
  have e1 := allocAlignH_er hb8 h
  obtain ⟨d, A', L', hr, R⟩ : ∃ d A' L', r = d.uptr ∧ SAlloc pb s A O L P b n d s' A' L' := by
    rcases salloc_ok (C := C) I hb hn hlt hfit with ⟨_, h2⟩ | ⟨s2, d, A', L', h2, R⟩
    · rw [e1] at h2; cases h2
    · rw [e1] at h2
      cases h2
      exact ⟨d, A', L', rfl, R⟩
  refine ⟨d, A', L', hr, R, ?_⟩
  rcases allocAlignH_blocks hA hG hb8 h with ⟨h0, _⟩ | ⟨u, u', v, hv, hvW, G, hp, hw, hev⟩
  · exact absurd (hr.symm.trans h0) R.nz
  rw [hN] at G
  have hNz : alignedSize b n ≠ 0 := by omega
  have e2 := G.run I hNz hv
  have h00 : alignedSize 0 (alignedSize b n) = alignedSize b n := by
    rw [alignedSize, if_neg (by omega)]
  rcases salloc_ok (C := C) (b := 0) I (Or.inl (by omega)) hNz (by rw [h00]; exact hlt) (by rw [h00]; exact hfit) with
    ⟨_, h2⟩ | ⟨s2, d0, A0, L0, h2, R0⟩
  · rw [e2] at h2; cases h2
  rw [e2] at h2
  have h2 := Outcome.ok.inj h2
  simp only [Prod.mk.injEq] at h2
  obtain ⟨rfl, h3⟩ := h2
  have hst0 := R0.noPad (by omega)
  have hU0 : A0.Used d0 := (R0.used d0).2 (Or.inr rfl)
  have W0 := R0.inv.ch.wf
  have hrd := W0.has_range hU0.1
  have hup : d0.uptr = d0.addr + 16 := by unfold Ck.uptr Ck.off; rw [hst0]
  have hv0 : v = d0.addr + 15 := by
    rw [hup] at h3
    unfold chunkBody at h3
    rw [if_neg hv] at h3
    unfold add64 at h3
    omega
  have M0 : MemOK (stdPool pb) u'.heap A0 := R0.inv.ch.mem
  obtain ⟨q1, _, q3⟩ := getChunkUnpadded_used W0 M0 hU0
  have q3' : getSize u.w.mem v = d0.size := by rw [← hw, hv0]; exact q3
  have hfit0 := R0.fit
  obtain ⟨d', A2, Q, hne, hs⟩ := padReturn_ok (σ := Light) (n := n) W0 hU0 hst0 hb (by omega)
  obtain ⟨m, e4, M2, _⟩ := hs u' M0
  rw [← hv0, hp] at e4
  simp only [Prod.mk.injEq] at e4
  obtain ⟨e5, e6⟩ := e4
  obtain ⟨t1, _, t3⟩ := getChunkUnpadded_used Q.wf M2 Q.usedD
  obtain ⟨w1, _, w3⟩ := getChunkUnpadded_used R.inv.ch.wf R.inv.ch.mem ((R.used d).2 (Or.inr rfl))
  have w1' : getChunkUnpadded s'.w.mem d.uptr = .ok (d.addr + 15) := w1
  have w3' : getSize s'.w.mem (d.addr + 15) = d.size := w3
  have t1' : getChunkUnpadded s'.w.mem d'.uptr = .ok (d'.addr + 15) := by rw [e5]; exact t1
  have t3' : getSize s'.w.mem (d'.addr + 15) = d'.size := by rw [e5]; exact t3
  rw [← e6, hr, w1'] at t1'
  have hadd := Outcome.ok.inj t1'
  rw [← hadd, w3'] at t3'
  rw [hev, q3', t3', Q.size]

end MpcAlloc.Hooks
