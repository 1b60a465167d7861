import Verif.ConcRefillLemmas

/-
Property C73: a chain is given memory while other threads use it.
-/

namespace MpcAlloc
namespace RF

variable {σ : Type} {S : Source σ} {C : Config} {pb : Nat} {B : List (Nat × Nat)} {s0 : CS σ} {L0 : List Block} {f f' : FS σ}
  {t : Nat}

/-! ### Refills that are not interrupted are refills -/

/-- The steps that the threads make from a state. -/
theorem Reach.alone {a : FAct} {f0 : FS σ} (h : Reach S C pb f0 f) (hv : f.Idle t → FValid pb f a)
    (hA : Alone S C t a f f') : Reach S C pb f0 f' := by
  induction hA with
  | last e _ => exact h.step hv e
  | more e o _ ih => exact ih (h.step hv e) (fun hi => absurd hi.1 o)

/-- What the client sees to only restricts the order of the steps. -/
theorem Guarded.reach {f0 : FS σ} (h : Guarded S C pb f0 f) : Reach S C pb f0 f := by
  induction h with
  | init => exact .init
  | step _ hv e ih => exact ih.step hv e
  | refill _ _ hv _ hA ih => exact ih.alone (fun _ => hv) hA

theorem fstep_plain {a : KAct} (h : f.pc t = .out) :
    fstep S C f t (.plain a) = kstep S C f.k t a >>= fun k => .ok { f with k := k } := by
  unfold fstep
  rw [h]
  cases f.k.pc t <;> rfl

/-- The invariant between two moves. -/
structure GInv (S : Source σ) (C : Config) (pb : Nat) (B : List (Nat × Nat)) (s0 : CS σ) (L0 : List Block) (f : FS σ) : Prop where
  inv : ∃ s rs Ls A, KInv S C pb B f.bufs s0 L0 f.k s rs Ls A
  out : ∀ t, f.pc t = .out
  small : ∀ t, Small (f.k.pc t)

theorem FValid.plain {a : KAct} (h : FValid pb f (.plain a)) : KValid f.bufs f.k a := by
  cases a with
  | alloc b n => exact ⟨h.1, Or.inl h.2⟩
  | free p => exact h
  | write a v => exact h

theorem FValid.refill {L : List Block} {b sz : Nat} (h : FValid pb f (.refill b sz)) :
    ValidOp pb L f.bufs (.refill b sz) ∧ RegOK f.k.s (.refill b sz) := by
  obtain ⟨⟨h1, h2, h3, h4, h5, h6, h7, _⟩, h8, h9⟩ := h
  exact ⟨⟨h1, h2, h3, h4, h5, h6, h7, fun y hy => h8 y (Or.inl hy)⟩, h9⟩

theorem GInv.step (hf : C.reallocFactor ≠ 0) (h0 : MpcAlloc.Reach S C pb s0 L0 B) (H : GInv S C pb B s0 L0 f) {a : KAct}
    (hv : f.Idle t → FValid pb f (.plain a)) : ∃ f', fstep S C f t (.plain a) = .ok f' ∧ GInv S C pb B s0 L0 f' := by
  obtain ⟨s, rs, Ls, A, K⟩ := H.inv
  have hv' : f.k.pc t = .idle → KValid f.bufs f.k a := fun h => (hv ⟨H.out t, h⟩).plain
  obtain ⟨k', e, s', rs', Ls', A', K', _⟩ := K.step hf h0 hv'
  refine ⟨{ f with k := k' }, ?_, ⟨_, _, _, _, K'⟩, H.out, ?_⟩
  · rw [fstep_plain (H.out t), e, Outcome.ok_bind]
  · refine kstep_small e H.small (fun hi b n ha => ?_)
    subst ha
    exact (hv ⟨H.out t, hi⟩).2

theorem GInv.refill (H : GInv S C pb B s0 L0 f) {b sz : Nat} (hi : f.Idle t) (hv : FValid pb f (.refill b sz))
    (hl : f.k.s.c.lock = false) :
    ∃ f', Alone S C t (.refill b sz) f f' ∧ GInv S C pb B s0 L0 f' ∧ f'.bufs = f.bufs ++ [(b, sz)] ∧
      f'.k.log = f.k.log ++ [.refill b sz] ∧ f'.k.pc = f.k.pc ∧ f'.k.live = f.k.live := by
  obtain ⟨s, rs, Ls, A, K⟩ := H.inv
  obtain ⟨s1, s', A', e, K'⟩ := K.refill H.small hl (hv.refill (L := Ls)).1 (hv.refill (L := Ls)).2
  have h1 := hv.1.1
  have h4 := hv.1.2.2.2.1
  exact ⟨_, alone_refill hi (by omega) (by omega) e, ⟨⟨_, _, _, _, K'⟩, H.out, H.small⟩, rfl, rfl, rfl, rfl⟩

theorem guarded_inv (hf : C.reallocFactor ≠ 0) (h0 : MpcAlloc.Reach S C pb s0 L0 B) (hts : s0.c.threadSafe = true)
    (h : Guarded S C pb (.start s0 L0 B) f) : GInv S C pb B s0 L0 f := by
  induction h with
  | init =>
    obtain ⟨A, K⟩ := kinit_inv hf h0 hts
    exact ⟨⟨_, _, _, _, K⟩, fun _ => rfl, fun _ => trivial⟩
  | step _ hv e ih =>
    obtain ⟨f', e', H'⟩ := ih.step hf h0 hv
    rw [e] at e'
    rw [Outcome.ok.inj e']
    exact H'
  | refill _ hi hv hl hA ih =>
    obtain ⟨f', e', H', _⟩ := ih.refill (S := S) (C := C) hi hv hl
    rw [hA.det e']
    exact H'

/-! ### C73 -/

/-- C73: let threads allocate, free and store data on a thread safe chain without source while the chain is given
more buffers, each refill being started when no thread has the lock and not interrupted. The calls run one at a time, in the
order in which they got the lock (for a refill: in which it was made), are valid, give every call that is over the
result it returned, leave live every block that a client owns, and the chain with the buffers it was given.
Once no thread is in a call, every call is over, the live blocks are those of the clients, and the chain cannot be told
from the one left by the sequential run. -/
theorem C73_linearizable_partial (hf : C.reallocFactor ≠ 0) (h0 : MpcAlloc.Reach S C pb s0 L0 B)
    (hts : s0.c.threadSafe = true) (h : Guarded S C pb (.start s0 L0 B) f) :
    ∃ s rs L, Run S C pb s0 L0 B f.k.log rs s L f.bufs ∧ (∀ i r, f.k.ret i = some r → rs[i]? = some r) ∧
      (∀ l ∈ f.k.live, l ∈ L) ∧
      (f.k.Quiescent → (∀ i, i < f.k.log.length → f.k.ret i ≠ none) ∧ (∀ l ∈ L, l ∈ f.k.live) ∧
        SameChain S C pb L f.bufs s f.k.s) := by
  obtain ⟨s, rs, L, A, K⟩ := (guarded_inv hf h0 hts h).inv
  exact K.linear hf h0

/-- C73: no step fails under these conditions. A refill that is started when no thread has the lock and is not interrupted
comes to its end and has given the chain the buffer; the other threads are where they were, with their blocks. -/
theorem C73_no_failure_partial (hf : C.reallocFactor ≠ 0) (h0 : MpcAlloc.Reach S C pb s0 L0 B)
    (hts : s0.c.threadSafe = true) (h : Guarded S C pb (.start s0 L0 B) f) (t : Nat) :
    (∀ a, (f.Idle t → FValid pb f (.plain a)) → ∃ f', fstep S C f t (.plain a) = .ok f') ∧
    ∀ b sz, f.Idle t → FValid pb f (.refill b sz) → f.k.s.c.lock = false →
      ∃ f', Alone S C t (.refill b sz) f f' ∧ f'.bufs = f.bufs ++ [(b, sz)] ∧ f'.k.log = f.k.log ++ [.refill b sz] ∧
        f'.k.pc = f.k.pc ∧ f'.k.live = f.k.live := by
  have H := guarded_inv hf h0 hts h
  constructor
  · intro a hv
    obtain ⟨f', e, _⟩ := H.step hf h0 hv
    exact ⟨f', e⟩
  · intro b sz hi hv hl
    obtain ⟨f', e, _, h1⟩ := H.refill (S := S) (C := C) hi hv hl
    exact ⟨f', e, h1⟩

/-- C73: under these conditions the blocks that the clients own never overlap, hold what was stored in them, and are in
the buffers of the chain. -/
theorem C73_blocks_partial (hf : C.reallocFactor ≠ 0) (h0 : MpcAlloc.Reach S C pb s0 L0 B)
    (hts : s0.c.threadSafe = true) (h : Guarded S C pb (.start s0 L0 B) f) :
    (∀ l ∈ f.k.live, ∀ l' ∈ f.k.live, l ≠ l' → l.Disj l') ∧
    (∀ l ∈ f.k.live, ∀ x, l.Byte x → ∀ v, f.k.data x = some v → f.k.s.w.mem x = v) ∧
    ∀ l ∈ f.k.live, ∃ y ∈ f.bufs, y.1 ≤ l.ptr ∧ l.ptr + l.len ≤ y.1 + y.2 := by
  obtain ⟨s, rs, L, A, H⟩ := (guarded_inv hf h0 hts h).inv
  refine ⟨?_, H.data, ?_⟩
  · intro l hl l' hl' hne x hx
    obtain ⟨g0, c, hc, g1, g2, _⟩ := H.owned hl
    obtain ⟨g0', c', hc', g1', g2', _⟩ := H.owned hl'
    have hcc : c ≠ c' := by
      rintro rfl
      exact hne (ptr_unique (H.nodup hf h0) g0 g0' (g1.symm.trans g1'))
    have := H.wf.has_disj hc.1 hc'.1 hcc
    have := H.wf.uptr_ge c
    have := H.wf.uptr_ge c'
    obtain ⟨⟨h1, h2⟩, h3, h4⟩ := hx
    omega
  · intro l hl
    obtain ⟨_, c, ⟨⟨g, hg, hcg⟩, _⟩, g1, g2, _⟩ := H.owned hl
    have hb := (H.wf.seg g hg).bounds hcg
    have := H.wf.uptr_ge c
    refine ⟨(g.base, g.size), ?_, ?_, ?_⟩
    · rw [← H.bufs]
      exact List.mem_map.2 ⟨g, hg, rfl⟩
    · simp only; omega
    · simp only; omega

end RF
end MpcAlloc
