import Verif.ConcRealloc
import Verif.ConcurrentLemmas
import Verif.ChainRealloc

/-
Invariant of the interleaved calls with realloc.
-/

namespace MpcAlloc
namespace CR

variable {σ : Type} {S : Source σ} {C : Config} {pb : Nat} {B : List (Nat × Nat)} {s0 s s' : CS σ} {L0 Ls Ls' : List Block}
  {k k' : KS σ} {rs rs' : List Nat} {A A' : AHeap} {t u : Nat}

/-! ### Facts about the steps of Concurrent.lean -/

/-- A step moves one thread. -/
theorem kstep_other {a : KAct} (e : kstep S C k t a = .ok k') (hu : u ≠ t) : k'.pc u = k.pc u := by
  have hg : ∀ (q : KS σ) (P : KPc), q.pc u = k.pc u → (q.goto t P).pc u = k.pc u := fun q P h => (if_neg hu).trans h
  unfold kstep at e
  split at e
  · unfold kstart at e
    split at e
    · split at e <;> cases e
      · rfl
      · exact hg _ _ rfl
    · split at e <;> cases e
      · rfl
      · exact hg _ _ rfl
    · cases e; rfl
  · cases e; exact hg _ _ rfl
  · cases e; exact hg _ _ rfl
  · obtain ⟨⟨s, v⟩, _, e⟩ := Outcome.bind_eq_ok e
    cases e; exact hg _ _ rfl
  · cases e; exact hg _ _ rfl
  · cases e; exact hg _ _ rfl
  · obtain ⟨v, _, e⟩ := Outcome.bind_eq_ok e
    split at e
    · split at e
      · cases e
      · cases e; exact hg _ _ rfl
    · split at e
      · cases e
      · cases e; exact hg _ _ rfl
  · cases e; exact hg _ _ rfl
  · cases e; exact hg _ _ rfl
  · obtain ⟨s, _, e⟩ := Outcome.bind_eq_ok e
    cases e; exact hg _ _ rfl
  · cases e; exact hg _ _ rfl

/-- What an allocation returns. -/
theorem _root_.MpcAlloc.KInv.padRet (H : KInv S C pb B B s0 L0 k s rs Ls A) {b n v i : Nat} (hpc : k.pc t = .allocPad b n v i)
    (hv : v ≠ 0) : (padAndReturn k.s v b).2 = retPtr v b ∧ retPtr v b ≠ 0 := by
  obtain ⟨_, hd⟩ : rs[i]? = some (if v = 0 then 0 else retPtr v b) ∧
      (v ≠ 0 → ∃ d, A.Used d ∧ d.addr + 15 = v ∧ d.st = .used none ∧ GoodBound b ∧
        n + (if 1 < b then b else 0) + 16 ≤ d.size ∧ PadDone s.w.mem d b ∧
        (⟨retPtr v b, n, decide (b ≤ 1)⟩ : Block) ∈ Ls) := by
    have := H.pcok t; rw [hpc] at this; exact this
  obtain ⟨d, hdU, hda, hst, hb, hds, hP, hlt⟩ := hd hv
  obtain ⟨d', A', R, hne, hp1, hp2⟩ := padReturn_both (σ := σ) (n := n) H.wf hdU hst hb hds
  obtain ⟨m, ek, Mk, _, fk⟩ := hp1 k.s H.memK
  have hr0 : d'.uptr = retPtr v b := by rw [R.ptr, ← hda]; rfl
  rw [hda, hr0] at ek
  rw [hr0] at hne
  exact ⟨by rw [ek], hne⟩

/-- The blocks of the clients share no byte. -/
theorem _root_.MpcAlloc.KInv.disj (hf : C.reallocFactor ≠ 0) (h0 : MpcAlloc.Reach S C pb s0 L0 B)
    (H : KInv S C pb B B s0 L0 k s rs Ls A) {l l' : Block} (hl : l ∈ k.live) (hl' : l' ∈ k.live) (hne : l ≠ l') : l.Disj l' := by
  intro x hx
  obtain ⟨g0, c, hc, g1, g2, _⟩ := H.owned hl
  obtain ⟨g0', c', hc', g1', g2', _⟩ := H.owned hl'
  have hcc : c ≠ c' := by
    rintro rfl
    exact hne (ptr_unique (H.nodup hf h0) g0 g0' (g1.symm.trans g1'))
  have := H.wf.has_disj hc.1 hc'.1 hcc
  have := H.wf.uptr_ge c
  have := H.wf.uptr_ge c'
  obtain ⟨⟨h1, h2⟩, h3, h4⟩ := hx
  omega

theorem _root_.MpcAlloc.KInv.livePos (H : KInv S C pb B B s0 L0 k s rs Ls A) {l : Block} (hl : l ∈ k.live) : l.ptr ≠ 0 := by
  obtain ⟨_, c, _, g, _⟩ := H.owned hl
  have := H.wf.uptr_ge c
  omega

theorem _root_.MpcAlloc.KInv.liveUnique (hf : C.reallocFactor ≠ 0) (h0 : MpcAlloc.Reach S C pb s0 L0 B)
    (H : KInv S C pb B B s0 L0 k s rs Ls A) {l l' : Block} (hl : l ∈ k.live) (hl' : l' ∈ k.live) (he : l.ptr = l'.ptr) : l = l' :=
  ptr_unique (H.nodup hf h0) (H.owned hl).1 (H.owned hl').1 he

/-- The step leaves alone a block of the clients, its contents and its chunk. -/
structure Frame (k k' : KS σ) (A A' : AHeap) (l : Block) : Prop where
  live : l ∈ k'.live
  data : ∀ x, l.Byte x → k'.data x = k.data x
  chunk : ∀ c, A.Used c → c.uptr = l.ptr → A'.Used c

/-- What an action of a thread touches. -/
def Touch (k : KS σ) (t : Nat) (a : KAct) (l : Block) : Prop :=
  k.pc t = .idle ∧ match a with
    | .alloc _ _ => False
    | .free p => p = l.ptr
    | .write x _ => l.Byte x

/-- A step leaves alone the blocks that it does not touch. -/
theorem _root_.MpcAlloc.KInv.frame (hf : C.reallocFactor ≠ 0) (h0 : MpcAlloc.Reach S C pb s0 L0 B)
    (H : KInv S C pb B B s0 L0 k s rs Ls A)
    (H' : KInv S C pb B B s0 L0 k' s' rs' Ls' A') (hk : KKeeps k A A') {a : KAct} (e : kstep S C k t a = .ok k') {l : Block}
    (hl : l ∈ k.live) (ht : ¬ Touch k t a l) : Frame k k' A A' l := by
  have same : k'.live = k.live → k'.data = k.data → Frame k k' A A' l := fun h1 h2 =>
    ⟨h1 ▸ hl, fun x _ => by rw [h2], hk l hl⟩
  have e0 := e
  unfold kstep at e
  split at e
  · rename_i hpc
    unfold kstart at e
    split at e
    · split at e <;> cases e <;> exact same rfl rfl
    · rename_i p
      split at e <;> cases e
      · exact same rfl rfl
      · refine ⟨List.mem_filter.2 ⟨hl, ?_⟩, fun _ _ => rfl, hk l hl⟩
        simp only [decide_eq_true_eq]
        exact fun h => ht ⟨hpc, h.symm⟩
    · rename_i x v
      cases e
      refine ⟨hl, fun y hy => ?_, hk l hl⟩
      show (if y = x then some v else k.data y) = k.data y
      rw [if_neg]
      rintro rfl
      exact ht ⟨hpc, hy⟩
  · cases e; exact same rfl rfl
  · cases e; exact same rfl rfl
  · obtain ⟨⟨s, v⟩, _, e⟩ := Outcome.bind_eq_ok e
    cases e; exact same rfl rfl
  · cases e; exact same rfl rfl
  · rename_i b n v i hpc
    have e := Outcome.ok.inj e
    by_cases hv : v = 0
    · subst hv
      refine same (by rw [← e]; rfl) ?_
      rw [← e]
      funext x
      show (if 0 ≠ 0 ∧ 0 ≤ x ∧ x < 0 + n then none else k.data x) = k.data x
      rw [if_neg (by omega)]
    · obtain ⟨g1, g2⟩ := H.padRet hpc hv
      have hne : l.ptr ≠ retPtr v b := by
        intro h
        refine ((H.live l).1 hl).2 t ?_
        rw [hpc, h]
        show (if v = 0 then none else some (retPtr v b)) = _
        rw [if_neg hv]
      have e2 : k' = (({ k with s := (padAndReturn k.s v b).1 }.give b n (padAndReturn k.s v b).2).return i
          (padAndReturn k.s v b).2).goto t .idle := by
        refine Outcome.ok.inj (e0.symm.trans ?_)
        unfold kstep
        rw [hpc]
        simp only [if_neg hv]
      rw [g1] at e2
      have hl' : k'.live = ⟨retPtr v b, n, decide (b ≤ 1)⟩ :: k.live := by
        rw [e2]
        show account k.live (.alloc b n) _ = _
        simp only [account, if_neg g2]
      have hd' : ∀ x, k'.data x = if retPtr v b ≠ 0 ∧ retPtr v b ≤ x ∧ x < retPtr v b + n then none else k.data x := by
        intro x; rw [e2]; rfl
      have hlk : l ∈ k'.live := by rw [hl']; exact List.mem_cons_of_mem _ hl
      refine ⟨hlk, ?_, hk l hl⟩
      intro x hx
      rw [hd', if_neg]
      intro h
      refine H'.disj (l' := ⟨retPtr v b, n, decide (b ≤ 1)⟩) hf h0 hlk (by rw [hl']; exact List.mem_cons_self) ?_ x ⟨hx, h.2⟩
      intro h; exact hne (by rw [h])
  · obtain ⟨v, _, e⟩ := Outcome.bind_eq_ok e
    split at e
    · split at e
      · cases e
      · cases e; exact same rfl rfl
    · split at e
      · cases e
      · cases e; exact same rfl rfl
  · cases e; exact same rfl rfl
  · cases e; exact same rfl rfl
  · obtain ⟨s, _, e⟩ := Outcome.bind_eq_ok e
    cases e; exact same rfl rfl
  · cases e; exact same rfl rfl

/-! ### Phases of an allocation and of a free -/

/-- In an allocation. -/
def InAlloc (b n : Nat) : KPc → Prop
  | .allocSwap b' n' | .allocLoad b' n' | .allocCrit b' n' | .allocUnlock b' n' _ _ | .allocPad b' n' _ _ => b' = b ∧ n' = n
  | _ => False

/-- In a free. -/
def InFree : KPc → Prop
  | .freeRead _ | .freeSwap _ _ | .freeLoad _ _ | .freeCrit _ _ | .freeUnlock _ => True
  | _ => False

theorem InAlloc.busy {b n : Nat} {P : KPc} (h : InAlloc b n P) : P ≠ .idle := by rintro rfl; exact h

theorem InFree.busy {P : KPc} (h : InFree P) : P ≠ .idle := by rintro rfl; exact h

theorem idleB_iff {P : KPc} : idleB P = true ↔ P = .idle := by
  cases P <;> simp [idleB]

theorem goto_pc (k : KS σ) (t : Nat) (P : KPc) : (k.goto t P).pc t = P := if_pos rfl

/-- An allocation goes on or returns. -/
theorem _root_.MpcAlloc.KInv.allocStep (H : KInv S C pb B B s0 L0 k s rs Ls A) {a : KAct} {b n : Nat} (hp : InAlloc b n (k.pc t))
    (e : kstep S C k t a = .ok k') :
    InAlloc b n (k'.pc t) ∨ (k'.pc t = .idle ∧ ∃ q, k'.ret (rankOf (k.pc t)) = some q ∧
      (q ≠ 0 → (⟨q, n, decide (b ≤ 1)⟩ : Block) ∈ k'.live ∧ ∀ l ∈ k.live, l.ptr ≠ q)) := by
  have e0 := e
  unfold kstep at e
  cases hpc : k.pc t with
  | allocSwap b' n' =>
    rw [hpc] at e hp
    cases e
    refine Or.inl ?_
    rw [goto_pc]
    split <;> exact hp
  | allocLoad b' n' =>
    rw [hpc] at e hp
    cases e
    refine Or.inl ?_
    rw [goto_pc]
    split <;> exact hp
  | allocCrit b' n' =>
    rw [hpc] at e hp
    obtain ⟨⟨s, v⟩, _, e⟩ := Outcome.bind_eq_ok e
    cases e
    refine Or.inl ?_
    rw [goto_pc]
    exact hp
  | allocUnlock b' n' v i =>
    rw [hpc] at e hp
    cases e
    refine Or.inl ?_
    rw [goto_pc]
    exact hp
  | allocPad b' n' v i =>
    rw [hpc] at hp
    obtain ⟨rfl, rfl⟩ := hp
    refine Or.inr ?_
    by_cases hv : v = 0
    · subst hv
      rw [hpc] at e
      have e := Outcome.ok.inj e
      rw [← e]
      refine ⟨goto_pc _ _ _, 0, ?_, fun h => absurd rfl h⟩
      show (if i = i then some _ else _) = _
      rw [if_pos rfl]
    · obtain ⟨g1, g2⟩ := H.padRet hpc hv
      have e2 : k' = (({ k with s := (padAndReturn k.s v b').1 }.give b' n' (padAndReturn k.s v b').2).return i
          (padAndReturn k.s v b').2).goto t .idle := by
        refine Outcome.ok.inj (e0.symm.trans ?_)
        unfold kstep
        rw [hpc]
        simp only [if_neg hv]
      rw [g1] at e2
      rw [e2]
      refine ⟨goto_pc _ _ _, retPtr v b', if_pos rfl, fun _ => ⟨?_, ?_⟩⟩
      · show _ ∈ account k.live (.alloc b' n') _
        simp only [account, if_neg g2]
        exact List.mem_cons_self
      · intro l hl h
        refine ((H.live l).1 hl).2 t ?_
        rw [hpc, h]
        show (if v = 0 then none else some (retPtr v b')) = _
        rw [if_neg hv]
  | _ => rw [hpc] at hp; exact absurd hp id

/-- A free goes on or returns. -/
theorem freeStep {a : KAct} (hp : InFree (k.pc t)) (e : kstep S C k t a = .ok k') :
    InFree (k'.pc t) ∨ k'.pc t = .idle := by
  unfold kstep at e
  cases hpc : k.pc t with
  | freeRead p =>
    rw [hpc] at e
    obtain ⟨v, _, e⟩ := Outcome.bind_eq_ok e
    split at e
    · split at e
      · cases e
      · cases e; exact Or.inr (goto_pc _ _ _)
    · split at e
      · cases e
      · cases e; exact Or.inl (by rw [goto_pc]; trivial)
  | freeSwap p v =>
    rw [hpc] at e
    cases e
    refine Or.inl ?_
    rw [goto_pc]
    split <;> trivial
  | freeLoad p v =>
    rw [hpc] at e
    cases e
    refine Or.inl ?_
    rw [goto_pc]
    split <;> trivial
  | freeCrit p v =>
    rw [hpc] at e
    obtain ⟨s, _, e⟩ := Outcome.bind_eq_ok e
    cases e
    exact Or.inl (by rw [goto_pc]; trivial)
  | freeUnlock i =>
    rw [hpc] at e
    cases e
    exact Or.inr (goto_pc _ _ _)
  | _ => rw [hpc] at hp; exact absurd hp id

/-! ### Steps of realloc itself -/

/-- Other contents recorded. -/
theorem _root_.MpcAlloc.KInv.setData (H : KInv S C pb B B s0 L0 k s rs Ls A) {d : Nat → Option UInt8}
    (hd : ∀ l ∈ k.live, ∀ x, l.Byte x → ∀ v, d x = some v → k.s.w.mem x = v) :
    KInv S C pb B B s0 L0 { k with data := d } s rs Ls A :=
  ⟨H.run, H.wf, H.memK, H.inv, H.src, H.ts, H.bufs, H.noAdj, H.regs, H.based, H.eqw, H.eqc, H.lock, H.pcok, H.used, H.all,
    H.live, H.busy, H.inj, H.injR, H.ret, H.pend, hd⟩

/-- The chunk of the block that a realloc was given. -/
def Src (A : AHeap) (c : Call) (old : Nat) : Prop :=
  ∃ d, A.Used d ∧ d.uptr = c.l.ptr ∧ c.l.ptr + c.l.len ≤ d.addr + d.size ∧ d.size = old + 16 ∧ ReallocSafe d c.n

theorem _root_.MpcAlloc.KInv.src_of (H : KInv S C pb B B s0 L0 k s rs Ls A) {c : Call} (hl : c.l ∈ k.live)
    (hg : c.l.plain = true ∨ c.n ≤ c.l.len) : ∃ old, Src A c old := by
  obtain ⟨h1, h2⟩ := (H.live c.l).1 hl
  obtain ⟨d, hd, h | ⟨u, _, h3⟩⟩ := H.used c.l h1
  · have hge := (H.wf.has_wf hd.1).ge
    refine ⟨d.size - 16, d, hd, h.1, h.2.1, by omega, ?_⟩
    rcases hg with g | g
    · exact reallocSafe_unpadded _ (h.2.2.1 g) (by omega)
    · have := h.1
      have := h.2.1
      unfold ReallocSafe
      omega
  · exact absurd h3 (h2 u)

theorem mem_resize {L : List Block} {p n : Nat} {l : Block} (hnd : (L.map Block.ptr).Nodup) (hl : l ∈ L) (hp : l.ptr = p)
    (x : Block) : x ∈ L.map (fun l => if l.ptr = p then { l with len := n } else l) ↔
      x = { l with len := n } ∨ (x ∈ L ∧ x.ptr ≠ p) := by
  rw [List.mem_map]
  constructor
  · rintro ⟨y, hy, rfl⟩
    by_cases h : y.ptr = p
    · rw [if_pos h, ptr_unique hnd hy hl (h.trans hp.symm)]
      exact Or.inl rfl
    · rw [if_neg h]
      exact Or.inr ⟨hy, h⟩
  · rintro (rfl | ⟨h1, h2⟩)
    · exact ⟨l, hl, by rw [if_pos hp]⟩
    · exact ⟨x, h1, by rw [if_neg h2]⟩

/-- A block that stays where it is. -/
theorem _root_.MpcAlloc.KInv.resize (hf : C.reallocFactor ≠ 0) (h0 : MpcAlloc.Reach S C pb s0 L0 B)
    (H : KInv S C pb B B s0 L0 k s rs Ls A) {c : Call} {old : Nat} (hl : c.l ∈ k.live) (hg : c.l.plain = true ∨ c.n ≤ c.l.len)
    (hb : GoodBound c.b) (hsz : SizeOK B c.b c.n) (hn : c.n ≠ 0) (hs : Src A c old)
    (hk : c.n ≤ old ∧ old - c.n ≤ C.reallocThreshold ∧ old - c.n ≤ old / C.reallocFactor) :
    ∃ rs' Ls', KInv S C pb B B s0 L0 (CR.resize k c) s rs' Ls' A ∧
      ∀ x, x ∈ (CR.resize k c).live ↔ x = { c.l with len := c.n } ∨ (x ∈ k.live ∧ x.ptr ≠ c.l.ptr) := by
  obtain ⟨hLs, hnb⟩ := (H.live c.l).1 hl
  obtain ⟨d, hd, hdp, hfit, hds, hsafe⟩ := hs
  have hpos := H.livePos hl
  have hnd := H.nodup hf h0
  have hold : c.l.ptr + c.n ≤ d.addr + d.size := by
    unfold ReallocSafe at hsafe
    omega
  have hkeep : ReallocKeep C d c.n := by
    unfold ReallocKeep
    rw [show d.size - 16 = old by omega]
    exact hk
  obtain ⟨r, A', R, _, _, _, hex⟩ := realloc_ok S C H.wf hd hb hn (sizeOK_aligned H.wf H.bufs hsz) hf hsafe s.c.noMerge
  have hr : r = d.uptr := by
    cases R with
    | keep => rfl
    | fail h => exact absurd hkeep h
    | move h => exact absurd hkeep h
  subst hr
  obtain ⟨h', e, _, _, _, hh⟩ := hex s H.inv H.src rfl
  rw [hh rfl, CS.setHeap_heap, hdp] at e
  have hlen := H.run.length
  have hacc : ∀ L : List Block, account L (.realloc c.l.ptr c.b c.n) c.l.ptr =
      L.map (fun l => if l.ptr = c.l.ptr then { l with len := c.n } else l) := by
    intro L
    simp only [account, if_neg hpos, if_true]
  have hrun := H.run.snoc (op := .realloc c.l.ptr c.b c.n) (r := c.l.ptr)
    ⟨hb, hsz, Or.inr ⟨c.l, hLs, rfl, Or.inr hg⟩⟩ trivial e
  rw [hacc] at hrun
  have hmL := mem_resize (n := c.n) hnd hLs rfl
  have hml : ∀ x, x ∈ (CR.resize k c).live ↔ x = { c.l with len := c.n } ∨ (x ∈ k.live ∧ x.ptr ≠ c.l.ptr) := by
    intro x
    show x ∈ account k.live (.realloc c.l.ptr c.b c.n) c.l.ptr ↔ _
    rw [hacc, List.mem_map]
    constructor
    · rintro ⟨y, hy, rfl⟩
      by_cases h : y.ptr = c.l.ptr
      · rw [if_pos h, H.liveUnique hf h0 hy hl h]
        exact Or.inl rfl
      · rw [if_neg h]
        exact Or.inr ⟨hy, h⟩
    · rintro (rfl | ⟨h1, h2⟩)
      · exact ⟨c.l, hl, if_pos rfl⟩
      · exact ⟨x, h1, if_neg h2⟩
  refine ⟨rs ++ [c.l.ptr], _, ⟨hrun, H.wf, H.memK, H.inv, H.src, H.ts, H.bufs, H.noAdj, H.regs, H.based, H.eqw, H.eqc,
    H.lock, ?_, ?_, ?_, ?_, ?_, H.inj, H.injR, ?_, ?_, ?_⟩, hml⟩
  · intro u
    refine (H.pcok u).mono H.wf (fun i r h => getElem?_append_some h) (fun _ _ d hd _ => ⟨hd, fun _ _ _ => rfl⟩)
      (fun _ _ _ _ hc _ => hc) ?_
    intro l hl hbu
    refine (hmL l).2 (Or.inr ⟨hl, ?_⟩)
    intro h
    rw [h] at hbu
    exact hnb u hbu
  · intro l hl'
    rcases (hmL l).1 hl' with rfl | ⟨h1, h2⟩
    · obtain ⟨d', hd', h | ⟨u, _, h3⟩⟩ := H.used c.l hLs
      · have : d' = d := H.wf.uptr_inj hd'.1 hd.1 (h.1.trans hdp.symm)
        subst this
        exact ⟨d', hd', Or.inl ⟨h.1, hold, h.2.2.1, h.2.2.2⟩⟩
      · exact absurd h3 (hnb u)
    · exact H.used l h1
  · intro e he
    obtain ⟨l, h1, h2⟩ := H.all e he
    by_cases h : l.ptr = c.l.ptr
    · have := ptr_unique hnd h1 hLs h
      subst this
      refine ⟨_, (hmL _).2 (Or.inl rfl), ?_⟩
      rcases h2 with h2 | ⟨u, _, h3⟩
      · have : e = d := H.wf.uptr_inj he.1 hd.1 (h2.1.trans hdp.symm)
        subst this
        exact Or.inl ⟨h2.1, hold, h2.2.2.1, h2.2.2.2⟩
      · exact absurd h3 (hnb u)
    · exact ⟨l, (hmL _).2 (Or.inr ⟨h1, h⟩), h2⟩
  · intro l
    rw [hml l, hmL l]
    constructor
    · rintro (rfl | ⟨h1, h2⟩)
      · exact ⟨Or.inl rfl, hnb⟩
      · exact ⟨Or.inr ⟨((H.live l).1 h1).1, h2⟩, ((H.live l).1 h1).2⟩
    · rintro ⟨rfl | ⟨h1, h2⟩, h3⟩
      · exact Or.inl rfl
      · exact Or.inr ⟨(H.live l).2 ⟨h1, h3⟩, h2⟩
  · intro u p hu
    obtain ⟨l, h1, h2⟩ := H.busy u p hu
    refine ⟨l, (hmL _).2 (Or.inr ⟨h1, ?_⟩), h2⟩
    intro h
    rw [← h2, h] at hu
    exact hnb u hu
  · intro i q h
    have h' : (if i = k.log.length then some c.l.ptr else k.ret i) = some q := h
    split at h'
    · rename_i hi
      cases h'
      rw [hi, ← hlen]
      simp
    · exact getElem?_append_some (H.ret i q h')
  · intro i hi'
    have hi' : i < (k.log ++ [Op.realloc c.l.ptr c.b c.n]).length := hi'
    simp only [List.length_append, List.length_singleton] at hi'
    by_cases hi2 : i = k.log.length
    · left
      show (if i = k.log.length then some c.l.ptr else k.ret i) ≠ none
      simp [hi2]
    · rcases H.pend i (by omega) with h | h
      · left
        show (if i = k.log.length then some c.l.ptr else k.ret i) ≠ none
        rw [if_neg hi2]; exact h
      · exact Or.inr h
  · intro l hl' x hx w hw
    have hw' : (if c.l.ptr + c.l.len ≤ x ∧ x < c.l.ptr + c.n then none else k.data x) = some w := hw
    split at hw'
    · cases hw'
    · rename_i hout
      rcases (hml l).1 hl' with rfl | ⟨h1, h2⟩
      · refine H.data c.l hl x ?_ w hw'
        obtain ⟨x1, x2⟩ := hx
        simp only at x1 x2
        exact ⟨x1, by omega⟩
      · exact H.data l h1 x hx w hw'

/-! ### Invariant -/

/-- The block that a realloc was given is still the client's, with its first contents. -/
structure Own (B : List (Nat × Nat)) (k : KS σ) (c : Call) : Prop where
  live : c.l ∈ k.live
  bound : GoodBound c.b
  size : SizeOK B c.b c.n
  pos : c.n ≠ 0
  grow : c.l.plain = true ∨ c.n ≤ c.l.len
  data : ∀ x, c.l.Byte x → k.data x = some (c.snap (x - c.l.ptr))

/-- The new block and what was copied into it. -/
structure New (k : KS σ) (c : Call) (q j : Nat) : Prop where
  live : (⟨q, c.n, decide (c.b ≤ 1)⟩ : Block) ∈ k.live
  data : ∀ i, i < j → i < c.l.len → i < c.n → k.data (q + i) = some (c.snap i)

/-- What is known about a thread that is in a realloc. `P` is its place in alloc or free. -/
def PcOk (B : List (Nat × Nat)) (A : AHeap) (k : KS σ) (P : KPc) : Pc → Prop
  | .out => True
  | .read c => P = .idle ∧ Own B k c
  | .alloc c old => InAlloc c.b c.n P ∧ Own B k c ∧ Src A c old
  | .copy c old q i => P = .idle ∧ Own B k c ∧ Src A c old ∧ (q ≠ 0 → New k c q i ∧ q ≠ c.l.ptr)
  | .release c q => InFree P ∧ (q ≠ 0 → New k c q c.n)

theorem Own.frame {c : Call} (h : Own B k c) (f : Frame k k' A A' c.l) : Own B k' c :=
  ⟨f.live, h.bound, h.size, h.pos, h.grow, fun x hx => (f.data x hx).trans (h.data x hx)⟩

theorem Src.frame {c : Call} {old : Nat} (h : Src A c old) (f : Frame k k' A A' c.l) : Src A' c old := by
  obtain ⟨d, h1, h2, h3⟩ := h
  exact ⟨d, f.chunk d h1 h2, h2, h3⟩

theorem New.frame {c : Call} {q j : Nat} (h : New k c q j) (f : Frame k k' A A' ⟨q, c.n, decide (c.b ≤ 1)⟩) : New k' c q j :=
  ⟨f.live, fun i h1 h2 h3 => (f.data (q + i) ⟨by simp, by simp; omega⟩).trans (h.data i h1 h2 h3)⟩

theorem PcOk.frame {P : KPc} {p : Pc} (h : PcOk B A k P p)
    (f : ∀ l ∈ k.live, l.ptr ∈ held p → Frame k k' A A' l) : PcOk B A' k' P p := by
  cases p with
  | out => trivial
  | read c => exact ⟨h.1, h.2.frame (f _ h.2.live (by simp [held]))⟩
  | alloc c old =>
    have := f _ h.2.1.live (by simp [held])
    exact ⟨h.1, h.2.1.frame this, h.2.2.frame this⟩
  | copy c old q i =>
    obtain ⟨h1, h2, h3, h4⟩ := h
    have := f _ h2.live (by simp [held])
    refine ⟨h1, h2.frame this, h3.frame this, fun hq => ⟨(h4 hq).1.frame (f _ (h4 hq).1.live (by simp [held])), (h4 hq).2⟩⟩
  | release c q =>
    obtain ⟨h1, h2⟩ := h
    exact ⟨h1, fun hq => (h2 hq).frame (f _ (h2 hq).live (by simp [held]))⟩

/-- The blocks that a realloc works with are live. -/
theorem PcOk.heldLive {P : KPc} {p : Pc} (h : PcOk B A k P p) {q : Nat} (hq : q ∈ held p) (h0 : q ≠ 0) :
    ∃ l ∈ k.live, l.ptr = q := by
  cases p with
  | out => simp [held] at hq
  | read c => simp [held] at hq; exact ⟨c.l, h.2.live, hq.symm⟩
  | alloc c old => simp [held] at hq; exact ⟨c.l, h.2.1.live, hq.symm⟩
  | copy c old q' i =>
    simp [held] at hq
    rcases hq with rfl | rfl
    · exact ⟨c.l, h.2.1.live, rfl⟩
    · exact ⟨_, (h.2.2.2 h0).1.live, rfl⟩
  | release c q' =>
    simp [held] at hq
    subst hq
    exact ⟨_, (h.2 h0).live, rfl⟩

/-- Invariant. -/
structure RInv (S : Source σ) (C : Config) (pb : Nat) (B : List (Nat × Nat)) (s0 : CS σ) (L0 : List Block)
    (r : RS σ) (s : CS σ) (rs : List Nat) (Ls : List Block) (A : AHeap) : Prop where
  ki : KInv S C pb B B s0 L0 r.k s rs Ls A
  pcs : ∀ t, PcOk B A r.k (r.k.pc t) (r.pc t)
  apart : ∀ t u p, t ≠ u → p ≠ 0 → p ∈ held (r.pc t) → p ∉ held (r.pc u)

variable {r r' : RS σ}

/-- A step of thread `t`. -/
theorem RInv.move (H : RInv S C pb B s0 L0 r s rs Ls A) {P : Pc} {last : Nat → Option Nat}
    (H' : KInv S C pb B B s0 L0 k' s' rs' Ls' A') (ho : ∀ u, u ≠ t → k'.pc u = r.k.pc u)
    (hf : ∀ l ∈ r.k.live, (∃ u, u ≠ t ∧ l.ptr ∈ held (r.pc u)) → Frame r.k k' A A' l)
    (hP : PcOk B A' k' (k'.pc t) P)
    (hh : ∀ p ∈ held P, p ≠ 0 → p ∈ held (r.pc t) ∨ ∀ u, u ≠ t → p ∉ held (r.pc u)) :
    RInv S C pb B s0 L0 ⟨k', fun u => if u = t then P else r.pc u, last⟩ s' rs' Ls' A' := by
  have key : ∀ u, u ≠ t → ∀ p ∈ held P, p ≠ 0 → p ∉ held (r.pc u) := by
    intro u hu p hp h0
    rcases hh p hp h0 with h | h
    · exact H.apart t u p (Ne.symm hu) h0 h
    · exact h u hu
  refine ⟨H', ?_, ?_⟩
  · intro u
    show PcOk B A' k' (k'.pc u) (if u = t then P else r.pc u)
    by_cases hu : u = t
    · rw [if_pos hu, hu]; exact hP
    · rw [if_neg hu, ho u hu]
      exact (H.pcs u).frame (fun l hl hp => hf l hl ⟨u, hu, hp⟩)
  · intro u w p hne h0 hp
    show p ∉ held (if w = t then P else r.pc w)
    have hp : p ∈ held (if u = t then P else r.pc u) := hp
    by_cases hu : u = t
    · rw [if_pos hu] at hp
      have hw : w ≠ t := fun h => hne (hu.trans h.symm)
      rw [if_neg hw]
      exact key w hw p hp h0
    · rw [if_neg hu] at hp
      by_cases hw : w = t
      · rw [if_pos hw]
        exact fun h => key u hu p h h0 hp
      · rw [if_neg hw]
        exact H.apart u w p hne h0 hp

/-- A step of Concurrent.lean that touches no block of another realloc. -/
theorem RInv.kmove (hf : C.reallocFactor ≠ 0) (h0 : MpcAlloc.Reach S C pb s0 L0 B) (H : RInv S C pb B s0 L0 r s rs Ls A)
    {a : KAct} (hv : r.k.pc t = .idle → KValid B r.k a)
    (ht : ∀ l ∈ r.k.live, ∀ u, u ≠ t → l.ptr ∈ held (r.pc u) → ¬ Touch r.k t a l) :
    ∃ k' s' rs' Ls' A', kstep S C r.k t a = .ok k' ∧ KInv S C pb B B s0 L0 k' s' rs' Ls' A' ∧
      (∀ l ∈ r.k.live, ¬ Touch r.k t a l → Frame r.k k' A A' l) ∧
      ∀ (P : Pc) (last : Nat → Option Nat), PcOk B A' k' (k'.pc t) P →
        (∀ p ∈ held P, p ≠ 0 → p ∈ held (r.pc t) ∨ ∀ l ∈ r.k.live, l.ptr ≠ p) →
        RInv S C pb B s0 L0 ⟨k', fun u => if u = t then P else r.pc u, last⟩ s' rs' Ls' A' := by
  obtain ⟨k', e, s', rs', Ls', A', H', hk⟩ := H.ki.step hf h0 hv
  have hfr : ∀ l ∈ r.k.live, ¬ Touch r.k t a l → Frame r.k k' A A' l :=
    fun l hl h => H.ki.frame hf h0 H' hk e hl h
  refine ⟨k', s', rs', Ls', A', e, H', hfr, ?_⟩
  intro P last hP hh
  refine H.move H' (fun u hu => kstep_other e hu) ?_ hP ?_
  · rintro l hl ⟨u, hu, hp⟩
    exact hfr l hl (ht l hl u hu hp)
  · intro p hp hp0
    refine (hh p hp hp0).imp_right ?_
    intro h u hu hpu
    obtain ⟨l, hl, hlp⟩ := (H.pcs u).heldLive hpu hp0
    exact h l hl hlp

/-- A thread that is in a call touches no block. -/
theorem noTouch {a : KAct} (h : k.pc t ≠ .idle) (l : Block) : ¬ Touch k t a l := fun g => h g.1

end CR
end MpcAlloc
