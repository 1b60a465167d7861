import Verif.PropsChain

/-
Property C36: chains that get their buffer at initialisation (`sctk_alloc_chain_user_init`,
`sctk_alloc_chain_standalone_init`) and chains placed at the start of a shared segment
(`sctk_alloc_chain_shared_init`, /repo/src/sctk_allocator.c 1023-1037).
-/

namespace MpcAlloc

variable {σ : Type}

/-- Initialisation with a buffer is initialisation without memory followed by a refill: the chain is in a reachable
state, so that all the theorems on histories apply to it. -/
theorem userInit_reach (S : Source σ) {C : Config} (hf : C.reallocFactor ≠ 0) (w : World σ) {addr pb b sz : Nat}
    (ts nm nr : Bool) (h1 : 0 < pb) (h2 : pb + 1536 < W64) (hw : w.regs.OK) (hv : ValidOp pb [] [] (.refill b sz))
    (hr : nr = false → b + sz ≤ 281474976710656 ∧
      ∀ k, b / MB2 ≤ k → k < b / MB2 + (sz + MB2 - 1) / MB2 → w.regs.ent k = 0) :
    ∃ s, userInit w addr pb b sz ts nm nr = .ok s ∧ Reach S C pb s [] [(b, sz)] ∧ s.c.addr = addr ∧
      s.c.threadSafe = ts ∧ s.c.noMerge = nm ∧ s.c.noRegion = nr ∧
      ∀ x, ¬ InHeads pb x → ¬ InBufs [(b, sz)] x → s.w.mem x = w.mem x := by
  obtain ⟨s, e, I, g1, _, ga, gt, gm, gn, gs, _, _, _, _, _, gf⟩ := chainBaseInit_ok w (addr := addr) ts nm nr h1 h2
  have hs0 : ({ s with c := { s.c with hasSrc := false } } : CS σ) = s := by
    obtain ⟨sw, sc⟩ := s
    simp only at gs
    rw [← gs]
  have e0 : userInit w addr pb 0 0 ts nm nr = .ok s := by
    unfold userInit
    rw [e, Outcome.ok_bind, if_neg (by simp), Outcome.pure_eq, Outcome.ok_bind, hs0]
    rfl
  have R0 : Reach S C pb s [] [] := .init h1 h2 hw e0
  obtain ⟨A, H⟩ := reach_inv hf R0
  have hreg : RegOK s (.refill b sz) := by
    intro h
    rw [gn] at h
    rw [g1]
    exact hr h
  obtain ⟨r, A', hs⟩ := step_ok S C hf H.wf H.bufs H.live hv _ H.noAdj
  obtain ⟨s', e', H', k1, k2, k3, k4, _, F⟩ := hs s H rfl hreg
  have R1 := R0.step hv hreg e'
  have hb : b ≠ 0 := by have := hv.1; omega
  have e1 : userRefill s b sz = .ok s' := by
    unfold exec at e'
    obtain ⟨u, hu, e'⟩ := Outcome.bind_eq_ok e'
    cases e'
    exact hu
  refine ⟨s', ?_, by simpa [account, accountBufs] using R1, k3.trans ga, k4.trans gt, k1.trans gm, k2.trans gn, ?_⟩
  · unfold userInit
    rw [e, Outcome.ok_bind, if_pos hb, e1, Outcome.ok_bind]
    have hs1 : ({ s' with c := { s'.c with hasSrc := false } } : CS σ) = s' := by
      have := H'.src
      obtain ⟨sw, sc⟩ := s'
      simp only at this
      rw [← this]
    rw [hs1]
    rfl
  · intro x hx hy
    rw [F.out x hx (fun y hy' h => hy ⟨y, by simpa [accountBufs] using hy', h⟩)]
    exact gf x (fun h => hx h)

/-- A run without refill only writes in the list heads and the buffers. -/
theorem Run.frame {S : Source σ} {C : Config} {pb : Nat} (hf : C.reallocFactor ≠ 0) {s s' : CS σ}
    {L L' : List Block} {B B' : List (Nat × Nat)} {ops : List Op} {rs : List Nat}
    (hr : Run S C pb s L B ops rs s' L' B') : Reach S C pb s L B → (∀ b z, Op.refill b z ∉ ops) →
    B' = B ∧ ∀ x, ¬ InHeads pb x → ¬ InBufs B x → s'.w.mem x = s.w.mem x := by
  induction hr with
  | nil => exact fun _ _ => ⟨rfl, fun _ _ _ => rfl⟩
  | cons hv hreg e _ ih =>
    rename_i s0 s1 s2 L0 L2 B0 B2 op ops r rs _
    intro R hno
    have hB : accountBufs B0 op = B0 := by
      cases op with
      | refill b z => exact absurd List.mem_cons_self (hno b z)
      | _ => rfl
    obtain ⟨e1, h1⟩ := ih (R.step hv hreg e) (fun b z h => hno b z (List.mem_cons_of_mem _ h))
    obtain ⟨s1', r', e', hfr, _⟩ := C06_valid_calls_succeed_partial hf R hv hreg
    rw [e] at e'
    cases e'
    rw [hB] at e1 h1 hfr
    exact ⟨e1, fun x hx hy => (h1 x hx hy).trans (hfr x hx hy)⟩

/-- C36, for segments of which the address and the size, like the size `csz` of the chain structure, are multiples of
16, with at least 96 bytes left: the initialisation succeeds, and after any valid calls the blocks are inside of the
segment, behind the structure. Of the structure only the list heads (at `poff`, see `Chain` for the other fields) are
ever written, and nothing is written outside of the segment. -/
theorem C36_shared_partial (S : Source σ) {C : Config} (hf : C.reallocFactor ≠ 0) (w : World σ)
    {csz poff buf size : Nat} (hw : w.regs.OK) (h0 : 0 < buf) (h1 : 16 ∣ buf) (h2 : 16 ∣ size) (h3 : 16 ∣ csz)
    (h4 : poff + 1536 ≤ csz) (h5 : csz + 96 ≤ size) (h6 : buf + size < W64) (h7 : size - csz < W56) :
    ∃ s, sharedInit w csz poff buf size = .ok s ∧
      ∀ ops rs s' L' B', Run S C (buf + poff) s [] [(buf + csz, size - csz)] ops rs s' L' B' →
        (∀ b z, Op.refill b z ∉ ops) →
        (∀ l ∈ L', buf + csz ≤ l.ptr ∧ l.ptr + l.len ≤ buf + size) ∧
        ∀ x, x < buf + poff ∨ (buf + poff + 1536 ≤ x ∧ x < buf + csz) ∨ buf + size ≤ x → s'.w.mem x = w.mem x := by
  have hv : ValidOp (buf + poff) [] [] (.refill (buf + csz) (size - csz)) := by
    refine ⟨by omega, by omega, by omega, by omega, by omega, by omega, by omega, by simp⟩
  obtain ⟨s, e, R, _, _, _, _, hfr⟩ := userInit_reach S hf w (addr := buf) true false true (by omega) (by omega) hw hv
    (by intro h; cases h)
  refine ⟨s, ?_, ?_⟩
  · unfold sharedInit
    rw [if_neg (by omega), if_neg (by omega)]
    unfold standaloneInit
    rw [add64_eq (by omega), sub64_eq (by omega) (by omega)]
    exact e
  · intro ops rs s' L' B' hr hno
    obtain ⟨rfl, hfr'⟩ := Run.frame hf hr R hno
    have R' := R.run hr
    constructor
    · intro l hl
      obtain ⟨⟨y, hy, a1, a2⟩, _⟩ := C02_inside_buffers_partial hf R' hl
      rw [List.mem_singleton.1 hy] at a1 a2
      simp only at a1 a2
      omega
    · intro x hx
      have ha : ¬ InHeads (buf + poff) x := by unfold InHeads; omega
      have hb : ¬ InBufs [(buf + csz, size - csz)] x := by
        rintro ⟨y, hy, hb⟩
        rw [List.mem_singleton.1 hy] at hb
        simp only at hb
        omega
      rw [hfr' x ha hb, hfr x ha hb]

/-- Met by a page of shared memory: the structure has 1680 bytes with its list heads at offset 0 (x86-64, hooks off),
and a block of 100 bytes is allocated from the rest. -/
example : ∃ (s s' : CS Unit) (r : Nat) (L' : List Block) (B' : List (Nat × Nat)), sharedInit w0 1680 0 8192 4096 = .ok s ∧
    Run S0 Config.default (8192 + 0) s [] [(8192 + 1680, 4096 - 1680)] [.alloc 0 100] [r] s' L' B' ∧ r ≠ 0 ∧
    8192 + 1680 ≤ r ∧ r + 100 ≤ 8192 + 4096 := by
  obtain ⟨s, e, h⟩ := C36_shared_partial S0 default_factor w0 (csz := 1680) (poff := 0) (buf := 8192) (size := 4096)
    w0_regs (by omega) (by omega) (by omega) (by omega) (by omega) (by omega) (by omega) (by omega)
  have hv : ValidOp 8192 [] [] (.refill (8192 + 1680) (4096 - 1680)) := by
    refine ⟨by omega, by omega, by omega, by omega, by omega, by omega, by omega, by simp⟩
  obtain ⟨s1, e1, R, _, _, hm, _⟩ := userInit_reach S0 default_factor w0 (addr := 8192) (pb := 8192) true false true
    (by omega) (by omega) w0_regs hv (by intro h; cases h)
  have hs : s1 = s := by
    unfold sharedInit standaloneInit at e
    rw [if_neg (by omega), if_neg (by omega), add64_eq (by omega), sub64_eq (by omega) (by omega)] at e
    rw [Nat.add_zero] at e
    rw [e1] at e
    cases e
    rfl
  subst hs
  obtain ⟨A, H⟩ := reach_inv default_factor R
  have hseg := H.one_seg hm
  have hF : A.Has ⟨8192 + 1680 + 32, 4096 - 1680 - 48, .free⟩ :=
    ⟨_, by rw [hseg]; exact List.mem_singleton.2 rfl, by simp⟩
  obtain ⟨s', A', c, d, e', G, hne, R', H', g1⟩ := alloc_some (b := 0) (n := 100) default_factor R H
    (Or.inl (by omega)) (by omega) hF rfl (by simp only; omega) (by simp)
  have hr : Run S0 Config.default (8192 + 0) s1 [] [(8192 + 1680, 4096 - 1680)] [.alloc 0 100] [d.uptr] s'
      (account [] (.alloc 0 100) d.uptr) [(8192 + 1680, 4096 - 1680)] :=
    .cons ⟨Or.inl (by omega), Or.inl (by simp)⟩ trivial e' .nil
  have := (h _ _ _ _ _ hr (by simp)).1 ⟨d.uptr, 100, true⟩ (by simp [account, if_neg hne])
  exact ⟨s1, s', d.uptr, _, _, e, hr, hne, this.1, this.2⟩

end MpcAlloc
