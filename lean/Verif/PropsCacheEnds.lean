import Verif.PropsCache
import Verif.PropsConcEnds

/-!
C81 when threads end while the others run: the process of ConcEnds.lean, where a thread that ends marks its chain, sets the
destruction handler and purges its queue.
-/

namespace MpcAlloc.ConcEnds

/-- One event keeps the bound of the cache, if the state after it is one of the invariant. -/
theorem Event.keptW {C : Config} {X : MCall → Prop} {k k' : MS} (h1 : C.keepMem < 4611686018427387904)
    (h2 : C.keepMax < 4611686018427387904) (e : Event C X k k') (h : Kept C k.w.src) : KeptW C k'.w.src := by
  cases e with
  | call _ _ _ _ _ _ => rw [start_src]; exact Kept.w _ h
  | step e =>
    unfold ConcEnds.step at e
    split at e
    · cases e
    · exact mstep_kept h1 h2 e h
  | write _ _ => exact Kept.w _ h
  | @spawn s a z pb _ e =>
    refine Or.inl ?_
    show s.w.src.size ≤ _
    rw [spawn_size h1 h2 e]; exact h
  | flag _ _ _ => exact Kept.w _ h
  | handler _ _ _ =>
    unfold setHandler
    rw [start_src]
    exact Kept.w _ h

theorem Reach.kept {C : Config} {X : MCall → Prop} {k : MS} (hf : C.reallocFactor ≠ 0) (h : Reach C X k) :
    Kept C k.w.src := by
  obtain ⟨k0, h0, h⟩ := h
  induction h with
  | refl =>
    obtain ⟨m, R, o, _, _, _, rfl⟩ := h0
    exact Nat.zero_le _
  | @tail k1 k2 h e ih =>
    obtain ⟨Ω, K, μ, _, rfl, I⟩ := Reach.inv (cl := False) hf False.elim ⟨k0, h0, .tail h e⟩
    obtain ⟨H, L, D, B, J⟩ := I.m.inv
    exact LInv.kept (m := K.w.mem) (x := K.w.src) B.lin (fun h1 h2 => (Event.keptW h1 h2 e ih : KeptW C (K.tags μ).w.src))

/-- C81, the cache, when threads end while the others run: the blocs that the source keeps make together at most
`keep_mem + keep_max` bytes, also the blocs of the chains of threads that have ended. -/
theorem C81_cache_ends {C : Config} {X : MCall → Prop} {k : MS} (hf : C.reallocFactor ≠ 0) (h : Reach C X k) :
    ∃ L, Cached k.w.mem k.w.src L ∧ k.w.src.size = (L.map Prod.snd).sum ∧
      (L.map Prod.snd).sum ≤ C.keepMem + C.keepMax := by
  have hk := h.kept hf
  obtain ⟨Ω, K, μ, _, rfl, I⟩ := Reach.inv (cl := False) hf False.elim h
  obtain ⟨H, L, D, B, J⟩ := I.m.inv
  exact ⟨L, B.lin.cache, B.lin.size, (show (K.tags μ).w.src.size = _ from B.lin.size) ▸ hk⟩

/-- C81, the blocs, when threads end while the others run: those that are not in the cache are at most as many as the
blocks, counting the blocks that wait for their owner and those of calls that have not ended. The chains of
threads that have ended are among those counted. Missing: requests that need a chunk of 1 MB, for which it is false (`C78_refuted`). -/
theorem C81_blocs_ends_partial {C : Config} {k : MS} (hf : C.reallocFactor ≠ 0) (h : Reach C MClean k) :
    k.w.src.counter ≤ k.G.live.length + k.G.hand.length + k.G.queued.length := by
  obtain ⟨Ω, K, μ, _, rfl, I⟩ := Reach.inv (cl := True) hf (fun _ _ h => h) h
  obtain ⟨H, L, D, B, J⟩ := I.m.inv
  have hap := (List.pairwise_append.1 B.lin.apart).1
  have key : (shapes H).length ≤ (K.G.all.map PBlock.ptr).length := by
    refine hit_le _ _ hap (fun d hd => ?_)
    obtain ⟨t, g, hg, hd⟩ := mem_shapes.1 hd
    obtain ⟨l, hl, _, h1, h2⟩ := PInv.bloc_block B J hg hd
    have hl : l ∈ K.G.all ++ [] := hl
    rw [List.append_nil] at hl
    exact ⟨l.ptr, List.mem_map_of_mem hl, h1, h2⟩
  unfold MSpec.all at key
  simp only [List.length_map, List.length_append] at key
  have : K.w.src.counter = (shapes H).length := B.lin.cnt
  show K.w.src.counter ≤ K.G.live.length + K.G.hand.length + K.G.queued.length
  rw [this]
  omega

/-- Hypotheses of `C81_cache_ends` and `C81_blocs_ends_partial`: a thread with a block has begun to end. -/
example : ∃ C k r, C.reallocFactor ≠ 0 ∧ Reach C MClean k ∧ k.G.live = [⟨0, r, 100, true⟩] ∧ safe k 0 = true := by
  obtain ⟨k, r, z, hr, h, hp, hr0, hG, hz, hs⟩ := start_small (X := MClean) small_clean
  obtain ⟨v1, h1⟩ := h.flag (C := Config.default) (X := MClean) (hp 0)
  exact ⟨Config.default, setSafe k 0, r, by decide, hr.event v1, by show k.G.live = _; rw [hG], h1.safe0⟩

end MpcAlloc.ConcEnds
