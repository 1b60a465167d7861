import Verif.Stat
import Verif.Samples

/-
Property C38: the statistics of a chain.
-/

namespace MpcAlloc

variable {σ : Type}

/-- The chunks found by walking the headers of all the buffers, one buffer after the other. -/
def WalkAll (m : Mem) : List (Nat × Nat) → List (Nat × Nat × Bool) → Prop
  | [], l => l = []
  | y :: B, l => ∃ l1 l2, BufChunks m y.1 y.2 l1 ∧ WalkAll m B l2 ∧ l = l1 ++ l2

/-- Sizes of the free chunks that are not above `N` bytes. -/
def freeSizesUpTo (N : Nat) (l : List (Nat × Nat × Bool)) : List Nat :=
  (l.filter (fun x => x.2.2 && decide (x.2.1 ≤ N))).map (fun x => x.2.1)

theorem WalkAll.unique {m : Mem} : ∀ {B : List (Nat × Nat)} {l l' : List (Nat × Nat × Bool)}, WalkAll m B l →
    WalkAll m B l' → l = l'
  | [], _, _, h, h' => h.trans h'.symm
  | _ :: _, _, _, h, h' => by
    obtain ⟨a, b, h1, h2, rfl⟩ := h
    obtain ⟨a', b', h1', h2', rfl⟩ := h'
    have e1 : a = a' := Chunks.unique h1 h1'
    rw [e1, WalkAll.unique h2 h2']

theorem HInv.walk {pb : Nat} {s : CS σ} {L : List Block} {B : List (Nat × Nat)} {A : AHeap} (H : HInv pb s L B A) :
    WalkAll s.w.mem B (A.all.map Ck.view) := by
  have key : ∀ G : List Seg, (∀ g ∈ G, g ∈ A.segs) →
      WalkAll s.w.mem (G.map (fun g => (g.base, g.size))) ((G.flatMap Seg.chunks).map Ck.view) := by
    intro G
    induction G with
    | nil => intro _; rfl
    | cons g G ih =>
      intro h
      have hg := h g List.mem_cons_self
      have hw := H.wf.seg g hg
      have hm := (H.inv.mem.segs g hg).chunks
      rw [Seg.ext, chunksMem_append] at hm
      refine ⟨g.chunks.map Ck.view, _, chunks_of hw.tiles hm.1 hw.chunks,
        ih (fun x hx => h x (List.mem_cons_of_mem _ hx)), ?_⟩
      rw [List.flatMap_cons, List.map_append]
  have := key A.segs (fun _ h => h)
  rw [← H.bufs]
  exact this

theorem freeSizesUpTo_view (l : List Ck) : freeSizesUpTo MB2 (l.map Ck.view) =
    (l.filter (fun c => decide (c.st = .free) && decide (c.size ≤ MB2))).map Ck.size := by
  unfold freeSizesUpTo
  rw [List.filter_map, List.map_map]
  rfl

/-- C38, for a chain that is not thread safe, and for the free chunks of at most 2 MB: the number of chunks, their
total size and the largest size are exact, and the chain is unchanged. What is missing: the smallest size (reported as
0), the chunks above 2 MB (not counted), and thread safe chains (the call never ends): see the refutations below. -/
theorem C38_stat_partial {S : Source σ} {C : Config} {pb : Nat} {s : CS σ} {L : List Block} {B : List (Nat × Nat)}
    (hf : C.reallocFactor ≠ 0) (h : Reach S C pb s L B) (ht : s.c.threadSafe = false) :
    ∃ l st, WalkAll s.w.mem B l ∧ chainGetStat s = .ok (s, st) ∧
      st.nb = (freeSizesUpTo MB2 l).length ∧ st.mem = (freeSizesUpTo MB2 l).sum ∧
      st.max = ((freeSizesUpTo MB2 l).foldr max 0 : Nat) := by
  obtain ⟨A, H⟩ := reach_inv hf h
  refine ⟨_, _, H.walk, getStat_ok H.wf H.inv ht, ?_⟩
  rw [freeSizesUpTo_view]
  exact ⟨rfl, rfl, rfl⟩

/-- C38 is false: the smallest size is always reported as 0, although a free chunk is never empty. -/
theorem C38_refuted_min {S : Source σ} {C : Config} {pb : Nat} {s : CS σ} {L : List Block} {B : List (Nat × Nat)}
    (hf : C.reallocFactor ≠ 0) (h : Reach S C pb s L B) (ht : s.c.threadSafe = false) :
    ∃ l st, WalkAll s.w.mem B l ∧ chainGetStat s = .ok (s, st) ∧ st.min = 0 ∧ ∀ x ∈ l, 32 ≤ x.2.1 := by
  obtain ⟨A, H⟩ := reach_inv hf h
  refine ⟨_, _, H.walk, getStat_ok H.wf H.inv ht, rfl, ?_⟩
  intro x hx
  obtain ⟨c, hc, rfl⟩ := List.mem_map.1 hx
  exact (H.wf.has_wf (AHeap.mem_all.1 hc)).ge

/-- C38 is false: on a thread safe chain the call takes the lock twice and never ends. -/
theorem C38_refuted_thread_safe {S : Source σ} {C : Config} {pb : Nat} {s : CS σ} {L : List Block}
    {B : List (Nat × Nat)} (hf : C.reallocFactor ≠ 0) (h : Reach S C pb s L B) (ht : s.c.threadSafe = true) :
    chainGetStat s = .diverge := by
  obtain ⟨A, H⟩ := reach_inv hf h
  have I : ChainInv pb ({ s with c := { s.c with lock := false, threadSafe := false } } : CS σ) A :=
    ⟨H.inv.pool, H.inv.mem, H.inv.dead, rfl, H.inv.base⟩
  have hs := statLists_spec H.wf I 44 0 ⟨0, 0, -1, 0⟩ (by omega)
  have h1 : lockIf s = .ok { s with c := { s.c with lock := true } } := by
    unfold lockIf
    rw [H.inv.dead, H.inv.lock, ht]
    rfl
  have h2 : lockIf ({ s with c := { s.c with lock := true } } : CS σ) = .diverge := by
    unfold lockIf
    simp only [H.inv.dead, ht, if_true, Bool.false_eq_true, if_false]
  unfold chainGetStat
  rw [h1, Outcome.ok_bind]
  have e : (statLists s.w.mem s.c.pool 0 s.c.pool.nb ⟨0, 0, -1, 0⟩ : Outcome Stat) =
      statLists s.w.mem (stdPool pb) 0 44 ⟨0, 0, -1, 0⟩ := by rw [H.inv.pool]; rfl
  show (do
    let st ← statLists s.w.mem s.c.pool 0 s.c.pool.nb ⟨0, 0, -1, 0⟩
    let s ← lockIf ({ s with c := { s.c with lock := true } } : CS σ)
    return (s, if st.min = -1 then { st with min := 0 } else st)) = _
  rw [e]
  have hs' : statLists s.w.mem (stdPool pb) 0 44 ⟨0, 0, -1, 0⟩ = _ := hs
  rw [hs', Outcome.ok_bind, h2]
  rfl

/-- A chain that was just given one buffer, thread safe or not. -/
theorem fresh_reach_ts {X sz : Nat} (h : SampleBuf X sz) (ts nm : Bool) :
    ∃ s : CS Unit, Reach S0 Config.default 4096 s [] [(X, sz)] ∧ s.c.noMerge = nm ∧ s.c.threadSafe = ts := by
  obtain ⟨s, e, H⟩ := init_inv (addr := 4096) (pb := 4096) w0 ts nm true (by omega) (by omega) w0_regs
  have hnm : s.c.threadSafe = ts ∧ s.c.noMerge = nm ∧ s.c.noRegion = true := by
    obtain ⟨s', e', _, _, _, _, g0, g1, g2, _⟩ := chainBaseInit_ok w0 (addr := 4096) (pb := 4096) ts nm true
      (by omega) (by omega)
    unfold userInit at e
    rw [e', Outcome.ok_bind, if_neg (by simp), Outcome.pure_eq, Outcome.ok_bind] at e
    cases e
    exact ⟨g0, g1, g2⟩
  have R0 : Reach S0 Config.default 4096 s [] [] := .init (by omega) (by omega) w0_regs e
  have hv : ValidOp 4096 [] [] (.refill X sz) := by
    have := h.lo; have := h.dvdX; have := h.dvdS; have := h.ge; have := h.lt; have := h.hi
    refine ⟨by omega, by assumption, by assumption, by omega, by omega, by omega, by omega, by simp⟩
  have hr : RegOK s (.refill X sz) := by
    intro h; rw [hnm.2.2] at h; cases h
  obtain ⟨r, A', hs⟩ := step_ok S0 Config.default default_factor H.wf H.bufs H.live hv _ H.noAdj
  obtain ⟨s', e', H', g1, _, _, g4, _⟩ := hs s H rfl hr
  refine ⟨s', ?_, g1.trans hnm.2.1, g4.trans hnm.1⟩
  have := R0.step hv hr e'
  simpa [account, accountBufs] using this

/-- The statistics of a chain that was just given one buffer. -/
theorem fresh_stat {X sz : Nat} (h : SampleBuf X sz) : ∃ s : CS Unit, Reach S0 Config.default 4096 s [] [(X, sz)] ∧
    s.c.threadSafe = false ∧ WalkAll s.w.mem [(X, sz)] [(X + 32, sz - 48, true)] ∧
    chainGetStat s = .ok (s, if sz - 48 ≤ MB2 then ⟨1, sz - 48, 0, ((sz - 48 : Nat) : Int)⟩ else ⟨0, 0, 0, 0⟩) := by
  obtain ⟨s, R, hm, ht⟩ := fresh_reach_ts h false false
  obtain ⟨A, H⟩ := reach_inv default_factor R
  have hall : A.all = [⟨X + 32, sz - 48, .free⟩] := by
    unfold AHeap.all
    rw [H.one_seg hm]
    rfl
  have hw := H.walk
  have hg := getStat_ok H.wf H.inv ht
  rw [hall] at hw hg
  refine ⟨s, R, ht, hw, hg.trans ?_⟩
  by_cases hs : sz - 48 ≤ MB2
  · rw [if_pos hs]
    simp [hs]
  · rw [if_neg hs]
    simp [hs]

/-- The hypotheses of `C38_stat_partial` are met by a chain that reports one free chunk of 4048 bytes; it also meets
those of `C38_refuted_min`. -/
example : ∃ s : CS Unit, Reach S0 Config.default 4096 s [] [(8192, 4096)] ∧ s.c.threadSafe = false ∧
    chainGetStat s = .ok (s, ⟨1, 4048, 0, 4048⟩) := by
  obtain ⟨s, R, ht, _, h⟩ := fresh_stat sampleBuf_4096
  exact ⟨s, R, ht, by simpa using h⟩

/-- The hypotheses of `C38_refuted_thread_safe` are met. -/
example : ∃ s : CS Unit, Reach S0 Config.default 4096 s [] [(8192, 4096)] ∧ s.c.threadSafe = true := by
  obtain ⟨s, R, _, ht⟩ := fresh_reach_ts sampleBuf_4096 true false
  exact ⟨s, R, ht⟩

/-- C38 is false: a free chunk of almost 4 MB is not counted, for it is in a list that is never looked at. -/
theorem C38_refuted_big : ∃ s : CS Unit, Reach S0 Config.default 4096 s [] [(8192, 4194304)] ∧
    WalkAll s.w.mem [(8192, 4194304)] [(8224, 4194256, true)] ∧ chainGetStat s = .ok (s, ⟨0, 0, 0, 0⟩) := by
  obtain ⟨s, R, _, hw, h⟩ := fresh_stat (X := 8192) (sz := 4194304)
    ⟨by omega, by omega, by omega, by omega, by omega, by omega⟩
  exact ⟨s, R, hw, by simpa using h⟩

/-- `sctk_alloc_rfq_count_entries` never returns a number for a non-empty list: the loop does not test the element it
has reached, and either runs through NULL or never ends. -/
theorem C38_count_entries {m : Mem} {e : Nat} (he : e ≠ 0) (cur cnt n : Nat) : rfqCountLoop m e cur cnt ≠ .ok n := by
  have := rfqCountLoop.fixpoint_induct m e (fun f => ∀ cur cnt, f cur cnt ≠ .ok n) ?_ ?_
  · exact this cur cnt
  · apply Lean.Order.admissible_pi_apply (P := fun (p : Nat) (g : Nat → Outcome Nat) => ∀ c, g c ≠ .ok n)
    intro p
    apply Lean.Order.admissible_pi_apply (P := fun (p : Nat) (g : Outcome Nat) => g ≠ .ok n)
    intro c
    exact Lean.Order.admissible_flatOrder (b := Outcome.diverge) (P := fun g => g ≠ .ok n)
      (by intro h; cases h)
  · intro f ih cur cnt
    simp only [if_neg he]
    split
    · simp
    · exact ih _ _
end MpcAlloc
