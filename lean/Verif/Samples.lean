import Verif.HistoryLemmas

/-
Concrete reachable states, used to show that the hypotheses of the property theorems are met and as
witnesses of the refutations.
-/

namespace MpcAlloc

variable {σ : Type}

/-- A world with empty memory and region table. -/
def w0 : World Unit := ⟨fun _ => 0, ⟨fun _ => false, fun _ => 0⟩, ()⟩

/-- A source that never gives memory. -/
def S0 : Source Unit := ⟨fun m s _ => .ok (m, s, 0), fun m s _ => .ok (m, s)⟩

theorem w0_regs : w0.regs.OK := by
  intro k _; rfl

theorem default_factor : Config.default.reallocFactor ≠ 0 := by decide

/-- A buffer a sample chain may get (its list heads are at 4096). -/
structure SampleBuf (X sz : Nat) : Prop where
  lo : 8192 ≤ X
  dvdX : 16 ∣ X
  dvdS : 16 ∣ sz
  ge : 96 ≤ sz
  lt : sz < W56
  hi : X + sz < W64

/-- A chain that was just given one buffer. -/
theorem fresh_reach {X sz : Nat} (h : SampleBuf X sz) (nm : Bool) :
    ∃ s : CS Unit, Reach S0 Config.default 4096 s [] [(X, sz)] ∧ s.c.noMerge = nm ∧ s.c.noRegion = true := by
  obtain ⟨s, e, H⟩ := init_inv (addr := 4096) (pb := 4096) w0 true nm true (by omega) (by omega) w0_regs
  have hnm : s.c.noMerge = nm ∧ s.c.noRegion = true := by
    obtain ⟨s', e', _, _, _, _, _, g1, g2, _⟩ := chainBaseInit_ok w0 (addr := 4096) (pb := 4096) true nm true
      (by omega) (by omega)
    unfold userInit at e
    rw [e', Outcome.ok_bind, if_neg (by simp), Outcome.pure_eq, Outcome.ok_bind] at e
    cases e
    exact ⟨g1, g2⟩
  have R0 : Reach S0 Config.default 4096 s [] [] := .init (by omega) (by omega) w0_regs e
  have hv : ValidOp 4096 [] [] (.refill X sz) := by
    have := h.lo; have := h.dvdX; have := h.dvdS; have := h.ge; have := h.lt; have := h.hi
    refine ⟨by omega, by assumption, by assumption, by omega, by omega, by omega, by omega, by simp⟩
  have hr : RegOK s (.refill X sz) := by
    intro h; rw [hnm.2] at h; cases h
  obtain ⟨r, A', hs⟩ := step_ok S0 Config.default default_factor H.wf H.bufs H.live hv _ H.noAdj
  obtain ⟨s', e', H', g1, g2, _⟩ := hs s H rfl hr
  refine ⟨s', ?_, g1.trans hnm.1, g2.trans hnm.2⟩
  have := R0.step hv hr e'
  simpa [account, accountBufs] using this

/-- The abstract heap of a chain with one buffer and no block. -/
theorem HInv.one_seg {pb : Nat} {s : CS σ} {X sz : Nat} {A : AHeap} (H : HInv pb s [] [(X, sz)] A)
    (hm : s.c.noMerge = false) : A.segs = [⟨X, sz, [⟨X + 32, sz - 48, .free⟩]⟩] := by
  have hb := H.bufs
  unfold AHeap.shape at hb
  cases hg : A.segs with
  | nil => rw [hg] at hb; simp at hb
  | cons g l =>
    rw [hg] at hb
    cases l with
    | cons _ _ => simp at hb
    | nil =>
      have he := H.empty_seg hm (g := g) (by rw [hg]; simp)
      simp only [List.map_cons, List.map_nil, List.cons.injEq, Prod.mk.injEq, and_true] at hb
      obtain ⟨gb, gs, gc⟩ := g
      simp only at hb he
      obtain ⟨rfl, rfl⟩ := hb
      rw [he]

/-- An allocation that finds a chunk. -/
theorem alloc_some {S : Source σ} {C : Config} {pb : Nat} {s : CS σ} {L : List Block} {B : List (Nat × Nat)}
    {A : AHeap} {b n : Nat} {f : Ck} (hfac : C.reallocFactor ≠ 0) (R : Reach S C pb s L B) (H : HInv pb s L B A)
    (hb : GoodBound b) (hn : n ≠ 0) (hF : A.Has f) (hst : f.st = .free) (hmax : f.size ≤ MB2)
    (hfit : n + (if 1 < b then b else 0) + 16 ≤ f.size) :
    ∃ s' A' c d, allocAlign S s b n = .ok (s', d.uptr) ∧ GotRel pb A b n c d A' ∧ d.uptr ≠ 0 ∧
      Reach S C pb s' (⟨d.uptr, n, decide (b ≤ 1)⟩ :: L) B ∧
      HInv pb s' (⟨d.uptr, n, decide (b ≤ 1)⟩ :: L) B A' ∧ s'.c.noMerge = s.c.noMerge := by
  have hov : ValidOp pb L B (.alloc b n) := ⟨hb, Or.inl (by omega)⟩
  obtain ⟨r, A0, hs⟩ := step_ok S C hfac H.wf H.bufs H.live hov _ H.noAdj
  obtain ⟨s', e', _⟩ := hs s H rfl trivial
  have R' := R.step hov trivial e'
  obtain ⟨A', hA, H', _, g1⟩ := H.alloc S hb hov.2 (show allocAlign S s b n = .ok (s', r) from e')
  have hcalc := calc_eq (n := alignedSize b n) (by unfold alignedSize; split <;> simp_all <;> omega)
  have hal : alignedSize b n = n + (if 1 < b then b else 0) := by unfold alignedSize; split <;> omega
  rcases hA with ⟨rfl, _, hno⟩ | ⟨c, d, G, rfl, hne⟩
  · have := hno hn _ hF hst hmax
    have := (H.wf.has_wf hF).ge
    rw [hcalc, hal] at *
    omega
  · have hacc : account L (.alloc b n) d.uptr = ⟨d.uptr, n, decide (b ≤ 1)⟩ :: L := by
      simp only [account, if_neg hne]
    rw [hacc] at R' H'
    exact ⟨s', A', c, d, e', G, hne, R', H', g1⟩

/-- A chain over one buffer, before (`s0`) and after (`s`) its first allocation. -/
structure OneBlock (X sz b n : Nat) (s0 s : CS Unit) (A0 A : AHeap) (d : Ck) : Prop where
  reach0 : Reach S0 Config.default 4096 s0 [] [(X, sz)]
  inv0 : HInv 4096 s0 [] [(X, sz)] A0
  merge0 : s0.c.noMerge = false
  call : allocAlign S0 s0 b n = .ok (s, d.uptr)
  reach : Reach S0 Config.default 4096 s [⟨d.uptr, n, decide (b ≤ 1)⟩] [(X, sz)]
  inv : HInv 4096 s [⟨d.uptr, n, decide (b ≤ 1)⟩] [(X, sz)] A
  merge : s.c.noMerge = false
  got : GotRel 4096 A0 b n ⟨X + 32, sz - 48, .free⟩ d A
  used : A.Used d
  only : ∀ c, A.Used c → c = d

theorem one_block {X sz b n : Nat} (h : SampleBuf X sz) (hb : GoodBound b) (hn : n ≠ 0)
    (hsz : n + (if 1 < b then b else 0) + 64 ≤ sz) (hm : sz ≤ MB2 + 48) :
    ∃ s0 s A0 A d, OneBlock X sz b n s0 s A0 A d := by
  obtain ⟨s, R, hnm, hnr⟩ := fresh_reach h false
  obtain ⟨A, H⟩ := reach_inv default_factor R
  have hlt := h.lt
  have hseg := H.one_seg hnm
  have hF : A.Has ⟨X + 32, sz - 48, .free⟩ := ⟨_, by rw [hseg]; exact List.mem_singleton.2 rfl, by simp⟩
  obtain ⟨s', A', c, d, e', G, hne, R', H', g1⟩ := alloc_some default_factor R H hb hn hF rfl
    (by simp only; omega) (by simp only; omega)
  have hc : c = ⟨X + 32, sz - 48, .free⟩ := by
    obtain ⟨g, hg, hcg⟩ := G.has
    rw [hseg] at hg
    rw [List.mem_singleton.1 hg] at hcg
    simpa using hcg
  subst hc
  refine ⟨s, s', A, A', d, R, H, hnm, e', R', H', g1.trans hnm, G, (G.used d).2 (Or.inr rfl), ?_⟩
  intro c hc
  rcases (G.used c).1 hc with h | h
  · obtain ⟨l, hl, _⟩ := H.live.all c h
    simp at hl
  · exact h

/-- Chunks of a chain with one block: the block and, if large enough, a free chunk behind it. -/
theorem OneBlock.free {X sz b n : Nat} {s0 s : CS Unit} {A0 A : AHeap} {d : Ck} (O : OneBlock X sz b n s0 s A0 A d)
    {x : Ck} (hx : x.st = .free) : A.Has x ↔ d.size < sz - 48 ∧ x = ⟨X + 32 + d.size, sz - 48 - d.size, .free⟩ := by
  rw [O.got.rest x hx]
  constructor
  · rintro (⟨⟨g, hg, hxg⟩, hne⟩ | h)
    · rw [O.inv0.one_seg O.merge0, List.mem_singleton] at hg
      subst hg
      simp only [List.mem_singleton] at hxg
      exact absurd hxg hne
    · exact h
  · exact Or.inr

/-- A second block behind the first one. -/
theorem OneBlock.second {X sz b n : Nat} {s0 s : CS Unit} {A0 A : AHeap} {d : Ck} (O : OneBlock X sz b n s0 s A0 A d)
    {b' n' : Nat} (hb : GoodBound b') (hn : n' ≠ 0) (hm : sz ≤ MB2 + 48)
    (hfit : d.size + n' + (if 1 < b' then b' else 0) + 64 ≤ sz) :
    ∃ s' A' d', allocAlign S0 s b' n' = .ok (s', d'.uptr) ∧
      GotRel 4096 A b' n' ⟨X + 32 + d.size, sz - 48 - d.size, .free⟩ d' A' ∧ d'.uptr ≠ 0 ∧
      Reach S0 Config.default 4096 s' [⟨d'.uptr, n', decide (b' ≤ 1)⟩, ⟨d.uptr, n, decide (b ≤ 1)⟩] [(X, sz)] ∧
      HInv 4096 s' [⟨d'.uptr, n', decide (b' ≤ 1)⟩, ⟨d.uptr, n, decide (b ≤ 1)⟩] [(X, sz)] A' ∧
      s'.c.noMerge = false := by
  have hF : A.Has ⟨X + 32 + d.size, sz - 48 - d.size, .free⟩ := (O.free rfl).2 ⟨by omega, rfl⟩
  obtain ⟨s', A', c, d', e', G, hne, R', H', g1⟩ := alloc_some default_factor O.reach O.inv hb hn hF rfl
    (by simp only; omega) (by simp only; omega)
  have hc := ((O.free G.free).1 G.has).2
  subst hc
  exact ⟨s', A', d', e', G, hne, R', H', g1.trans O.merge⟩

/-- Size of the first chunk. -/
theorem OneBlock.size {X sz b n : Nat} {s0 s : CS Unit} {A0 A : AHeap} {d : Ck} (O : OneBlock X sz b n s0 s A0 A d)
    (hn : n + (if 1 < b then b else 0) + 16 < W64) :
    max 32 (n + (if 1 < b then b else 0) + 16) ≤ d.size ∧ d.size < max 32 (n + (if 1 < b then b else 0) + 16) + 47 := by
  have hal : alignedSize b n = n + (if 1 < b then b else 0) := by unfold alignedSize; split <;> omega
  have h1 := O.got.min
  have h2 := O.got.tight
  unfold cutSize at h2
  rw [hal, calc_eq hn] at h1 h2
  omega

theorem sampleBuf_4096 : SampleBuf 8192 4096 := ⟨by omega, by omega, by omega, by omega, by omega, by omega⟩

/-- Two live blocks, one of them aligned on 64 bytes. -/
theorem two_blocks : ∃ (s : CS Unit) (p q : Nat), p ≠ 0 ∧ q ≠ 0 ∧
    Reach S0 Config.default 4096 s [⟨q, 200, false⟩, ⟨p, 100, true⟩] [(8192, 4096)] ∧ s.c.noMerge = false := by
  obtain ⟨s0, s, A0, A, d, O⟩ := one_block (b := 0) (n := 100) sampleBuf_4096 (Or.inl (by omega)) (by omega)
    (by simp) (by omega)
  have hs := O.size (by simp)
  simp only [Nat.not_lt_zero, if_false] at hs
  obtain ⟨s', A', d', e', G, hne, R', H', g1⟩ := O.second (b' := 64) (n' := 200) (Or.inr ⟨6, rfl⟩) (by omega)
    (by omega) (by simp; omega)
  refine ⟨s', d.uptr, d'.uptr, ?_, hne, R', g1⟩
  have := O.inv.wf.uptr_ge d
  omega

/-- One block was allocated, then freed. -/
theorem freed_block : ∃ s : CS Unit, Reach S0 Config.default 4096 s [] [(8192, 4096)] ∧ s.c.noMerge = false := by
  obtain ⟨s0, s, A0, A, d, O⟩ := one_block (b := 0) (n := 100) sampleBuf_4096 (Or.inl (by omega)) (by omega)
    (by simp) (by omega)
  have hov : ValidOp 4096 [⟨d.uptr, 100, decide (0 ≤ 1)⟩] [(8192, 4096)] (.free d.uptr) := Or.inr ⟨_, List.mem_cons_self, rfl⟩
  obtain ⟨r, A1, hs⟩ := step_ok S0 Config.default default_factor O.inv.wf O.inv.bufs O.inv.live hov _ O.inv.noAdj
  obtain ⟨s', e', _, g, _⟩ := hs s O.inv rfl trivial
  have R' := O.reach.step hov trivial e'
  refine ⟨s', ?_, g.trans O.merge⟩
  simpa [account, accountBufs] using R'

/-- An allocation without boundary only depends on the computed size of the chunk. -/
theorem allocAlign_congr (S : Source σ) (s : CS σ) {b n n' : Nat} (hb : b ≤ 1) (hn : n ≠ 0) (hn' : n' ≠ 0)
    (hs : s.c.hasSrc = false) (h : calcChunkSize n = calcChunkSize n') :
    allocAlign S s b n = allocAlign S s b n' := by
  have h1 : ∀ P t, findFreeChunk P t n = findFreeChunk P t n' := by
    intro P t; unfold findFreeChunk; rw [h]
  have h2 : ∀ m v, splitFreeBloc m v n = splitFreeBloc m v n' := by
    intro m v; unfold splitFreeBloc; rw [h]
  have h3 : ∀ k, isHuge s.c k = false := by intro k; unfold isHuge; rw [hs]; rfl
  have h4 : ∀ t, allocLocked S t n = allocLocked S t n' := by
    intro t; unfold allocLocked; simp only [h1, h2, h]
  unfold allocAlign
  have hb' : ¬ b > 1 := by omega
  simp only [if_neg hn, if_neg hn', if_neg hb', h3, h4, Bool.false_eq_true, if_false]

end MpcAlloc
