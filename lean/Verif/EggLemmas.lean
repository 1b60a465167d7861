import Verif.Egg
import Verif.ChainStart
import Verif.PosixOps

/-
Invariant of the process whose chains are taken from the egg chain.
-/

namespace MpcAlloc

variable {Ω : Env}

/-- The environment writes in its memory. -/
theorem PInv.setEnv {cl : Prop} {s : PS} {G : PSpec} (I : PInv Ω cl s G) {m' : Mem}
    (hm : ∀ x, ¬ Ω.mine x → m' x = s.w.mem x) (hb : ∀ d ∈ Ω.blocs, hSize m' d.1 = hSize s.w.mem d.1) :
    PInv { Ω with val := m' } cl (s.setMem m') G ∧ Keeps s (s.setMem m') G (fun _ => True) := by
  obtain ⟨H, L, D, B, K⟩ := I
  have hbloc : ∀ d ∈ shapes H ++ L, ∀ x, d.1 ≤ x → x < d.1 + d.2 → m' x = s.w.mem x := by
    intro d hd x h1 h2
    refine hm x (fun hx => ?_)
    obtain ⟨e, he, e1, e2⟩ := B.env.area x hx
    have := B.resD e he d hd x e1 e2
    omega
  have hseg : ∀ (t : Nat) (g : Gh), H[t]? = some g → ∀ x, g.A.SegAt x → m' x = s.w.mem x := by
    intro t g hg x hx
    obtain ⟨d, hd, d1, d2⟩ := segAt_shape.1 hx
    exact hbloc d (List.mem_append_left _ (mem_shapes.2 ⟨t, g, hg, hd⟩)) x d1 d2
  have hhdr : ∀ d ∈ shapes H, hSize m' d.1 = hSize s.w.mem d.1 := by
    intro d hd
    have hg := B.lin.good d (List.mem_append_left _ hd)
    have := hg.pos; have := hg.mul
    exact readLE_congr (fun x g1 g2 => hbloc d (List.mem_append_left _ hd) x g1 (by omega))
  refine ⟨⟨H, L, D, ?_, K⟩, ?_⟩
  · refine ⟨B.len, ?_, ?_, ?_, B.low, B.resU, B.resD, B.addrs, B.pools, B.ext, ?_⟩
    · intro t c g hc hg
      have T := B.th t c g hc hg
      refine ⟨T.ch.congr ?_, ⟨T.q.list.congr ?_, T.q.tail, T.q.used, T.q.nodup⟩, T.flag, T.pos, T.lt, T.pool, T.addr⟩
      · rintro x (hx | hx)
        · exact hm x (fun h => B.env.pool x h t g hg hx)
        · exact hseg t g hg x hx
      · intro k hk x g1 g2
        have hu := T.q.used k hk
        obtain ⟨d, hd, d1, d2⟩ := seg_of_has T.ch.wf hu.1
        have := T.ch.room k hu
        have := T.ch.wf.uptr_ge k
        exact hseg t g hg x (segAt_shape.2 ⟨d, hd, by omega, by omega⟩)
    · refine B.lin.congr (fun d hd x h1 h2 => ?_) hhdr
      have hg := B.lin.good d (List.mem_append_right _ hd)
      have := hg.pos; have := hg.mul
      exact hbloc d (List.mem_append_right _ hd) x h1 (by omega)
    · refine B.reg.congrMem (fun d hd => ?_)
      rcases List.mem_append.1 hd with hd | hd
      · exact hhdr d hd
      · exact hb d hd
    · exact ⟨B.env.area, B.env.pool, B.env.addr, fun x _ => rfl, B.env.addrs, B.env.pbs⟩
  · intro l hl _ x hx
    obtain ⟨g, k, hg, hk, _, hp, hfit, _⟩ := K.live l hl
    obtain ⟨c, hc, T⟩ := B.getH hg
    obtain ⟨d, hd, d1, d2⟩ := seg_of_has T.ch.wf hk.1
    have := T.ch.wf.uptr_ge k
    unfold PBlock.Byte at hx
    exact hseg _ g hg x (segAt_shape.2 ⟨d, hd, by omega, by omega⟩)

/-- The invariant of a user chain depends only on its own bytes. -/
theorem HInv.congrW {σ : Type} {pb : Nat} {w w' : World σ} {c : Chain} {L : List Block} {B : List (Nat × Nat)} {A : AHeap}
    (H : HInv pb ⟨w, c⟩ L B A) (hm : ∀ x, A.Meta pb x → w'.mem x = w.mem x) (hr : w'.regs.OK) :
    HInv pb ⟨w', c⟩ L B A := by
  have M : MemOK (stdPool pb) ⟨w'.mem, c.status⟩ A := MemOK.congr (h := ⟨w.mem, c.status⟩) H.wf H.inv.mem hm
  exact ⟨H.wf, ⟨H.inv.pool, M, H.inv.dead, H.inv.lock, H.inv.base⟩, H.src, H.bufs, H.live, H.noAdj, hr, H.based⟩

/-- Invariant: the threads, the egg chain over the buffer at `buf`, and the structures of the threads in its blocks. -/
structure EInv (cl : Prop) (e : ES) (G : PSpec) (a buf : Nat) (Ω : Env) (A : AHeap) (Lb : List Block) : Prop where
  p : PInv Ω cl e.p G
  h : HInv a ⟨e.p.w, e.egg⟩ Lb [(buf, MB2)] A
  blocs : Ω.blocs = [(buf, MB2)]
  mine : ∀ x, Ω.mine x ↔ (PoolAt a x ∨ (buf ≤ x ∧ x < buf + MB2)) ∧ ∀ t ∈ Ω.ths, x < t.1 ∨ t.1 + CHAIN_SIZE ≤ x
  ths : ∀ t ∈ Ω.ths, t.2 = t.1 ∧ ∃ l ∈ Lb, l.ptr = t.1 ∧ l.len = CHAIN_SIZE
  disj : Ω.ths.Pairwise (fun t t' => t.1 + CHAIN_SIZE ≤ t'.1 ∨ t'.1 + CHAIN_SIZE ≤ t.1)
  high : buf + MB2 ≤ 281474976710656

variable {cl : Prop} {e : ES} {G : PSpec} {a buf : Nat} {A : AHeap} {Lb : List Block}

/-- The egg chain has one segment. -/
theorem EInv.seg (I : EInv cl e G a buf Ω A Lb) {x : Nat} : A.SegAt x ↔ buf ≤ x ∧ x < buf + MB2 := by
  rw [segAt_shape, I.h.bufs]
  simp

/-- The structure of a thread is in the data of a block of the egg chain. -/
theorem EInv.user (I : EInv cl e G a buf Ω A Lb) {t : Nat × Nat} (ht : t ∈ Ω.ths) {x : Nat} (h1 : t.1 ≤ x)
    (h2 : x < t.1 + CHAIN_SIZE) : A.UserAt x := by
  obtain ⟨_, l, hl, e1, e2⟩ := I.ths t ht
  obtain ⟨c, hc, c1, c2, _⟩ := I.h.live.used l hl
  exact ⟨c, hc, by omega, by omega⟩

theorem AHeap.WF.user_seg {pb : Nat} {A : AHeap} (W : A.WF pb) {x : Nat} (h : A.UserAt x) : A.SegAt x := by
  obtain ⟨c, hc, h1, h2⟩ := h
  obtain ⟨d, hd, d1, d2⟩ := seg_of_has W hc.1
  have := W.uptr_ge c
  exact segAt_shape.2 ⟨d, hd, by omega, by omega⟩

theorem AHeap.WF.pool_seg {pb : Nat} {A : AHeap} (W : A.WF pb) {x : Nat} (h : A.SegAt x) : ¬ PoolAt pb x := by
  obtain ⟨s, hs, h1, h2⟩ := h
  have := W.pool s hs
  unfold PoolAt
  omega

/-- The bytes on which the egg chain relies are not written by the threads. -/
theorem EInv.meta_mine (I : EInv cl e G a buf Ω A Lb) {x : Nat} (h : A.Meta a x) : Ω.mine x := by
  refine (I.mine x).2 ⟨?_, fun t ht => ?_⟩
  · rcases h with h | h
    · exact Or.inl h
    · exact Or.inr (I.seg.1 h.1)
  · by_contra hc
    have hu := I.user ht (x := x) (by omega) (by omega)
    rcases h with h | h
    · exact I.h.wf.pool_seg (I.h.wf.user_seg hu) h
    · exact h.2 hu

/-- The memory of the environment. -/
theorem PInv.val {s : PS} (I : PInv Ω cl s G) {x : Nat} (h : Ω.mine x) : s.w.mem x = Ω.val x := by
  obtain ⟨H, L, D, B, _⟩ := I
  exact B.env.val x h

theorem PInv.regsOK {s : PS} (I : PInv Ω cl s G) : s.w.regs.OK := by
  obtain ⟨H, L, D, B, _⟩ := I
  exact B.reg.ok

/-- A call of a thread. -/
theorem EInv.call {C : Config} (hf : C.reallocFactor ≠ 0) (I : EInv cl e G a buf Ω A Lb) {op : POp}
    (hv : EValid e G (.call op)) (hcl : cl → CleanOp op) :
    (¬ OpMem e.p op ∧ eexec C e (.call op) = .ub) ∨
    ∃ e' r, eexec C e (.call op) = .ok (e', r) ∧ EInv cl e' (G.after op r) a buf Ω A Lb ∧ POk e.p G op e'.p r := by
  obtain ⟨hs, hv⟩ := hv
  have hΩ : Ω.after op = Ω := by
    cases op with
    | spawn a z pb => exact absurd rfl (hs a z pb)
    | _ => rfl
  have h := pstep (C := C) hf I.p hv hcl
  rw [hΩ] at h
  rcases h with ⟨h1, h2⟩ | ⟨p', r, ex, I', k, _⟩
  · left
    refine ⟨h1, ?_⟩
    unfold eexec
    simp only
    rw [h2]
    rfl
  · right
    refine ⟨⟨p', e.egg⟩, r, ?_, ⟨I', ?_, I.blocs, I.mine, I.ths, I.disj, I.high⟩, k⟩
    · unfold eexec
      simp only
      rw [ex]
      rfl
    · refine I.h.congrW (fun x hx => ?_) I'.regsOK
      have hx := I.meta_mine hx
      exact (I'.val hx).trans (I.p.val hx).symm

/-- Creation of a thread: there is no room in the egg chain, or the thread gets a structure; with what is kept. -/
theorem EInv.spawn_full {C : Config} (I : EInv cl e G a buf Ω A Lb) {h : Nat} (hb : GoodBound h)
    (hsz : h + CHAIN_SIZE + 16 < W64) :
    (eggSpawn C h e = .ub ∧
      ∀ c, A.Has c → c.st = .free → c.size ≤ MB2 → c.size < calcChunkSize (alignedSize h CHAIN_SIZE)) ∨
    ∃ e' Ω' A' Lb' c d, eggSpawn C h e = .ok e' ∧ EInv cl e' G a buf Ω' A' Lb' ∧ GotRel a A h CHAIN_SIZE c d A' ∧
      Ω'.ths.length = Ω.ths.length + 1 ∧ Keeps e.p e'.p G (fun _ => True) ∧
      e'.p.chs.length = e.p.chs.length + 1 ∧ e'.egg = { e.egg with status := e'.egg.status } ∧
      (∀ x, buf ≤ x → x < buf + 32 → e'.p.w.mem x = e.p.w.mem x) ∧
      (∀ l ∈ Lb, ∀ x, l.Byte x → e'.p.w.mem x = e.p.w.mem x) ∧ e'.p.w.src = e.p.w.src ∧
      ∃ r, Lb' = ⟨r, CHAIN_SIZE, decide (h ≤ 1)⟩ :: Lb ∧ Ω'.ths = Ω.ths ++ [(r, r)] := by
  have W := I.h.wf
  have hS : SizeOK [(buf, MB2)] h CHAIN_SIZE := by
    right
    refine ⟨?_, fun y hy => ?_⟩
    · split <;> omega
    · rw [List.mem_singleton] at hy; subst hy; simp only; omega
  obtain ⟨r, A', hR, W', hs⟩ := alloc_ok (lightSource C) W hb (sizeOK_aligned W I.h.bufs hS)
  obtain ⟨h', ea, M', fr, _⟩ := hs _ I.h.inv I.h.src
  obtain ⟨A2, hR2, H2, _⟩ := I.h.alloc (lightSource C) hb hS ea
  have hc : chainAlloc (lightSource C) h ⟨e.p.w, e.egg⟩ CHAIN_SIZE = _ := ea
  by_cases hr0 : r = 0
  · left
    refine ⟨?_, ?_⟩
    · unfold eggSpawn
      rw [hc, Outcome.ok_bind]
      simp only
      rw [if_pos hr0]
    · rcases hR with ⟨_, _, hno⟩ | ⟨c, d, _, hd, hne⟩
      · exact hno (by unfold CHAIN_SIZE; omega)
      · exact absurd hr0 (by rw [hd] at *; exact hne)
  right
  rcases hR2 with ⟨h0, _⟩ | ⟨c, d, R, hd, _⟩
  · exact absurd h0 hr0
  have hacc : account Lb (.alloc h CHAIN_SIZE) r = ⟨r, CHAIN_SIZE, decide (h ≤ 1)⟩ :: Lb := by
    unfold account
    simp only
    rw [if_neg hr0]
  rw [hacc] at H2
  have hdU : A2.Used d := (R.used d).2 (Or.inr rfl)
  obtain ⟨sg, hsg, s1, s2⟩ := seg_of_has H2.wf hdU.1
  rw [H2.bufs, List.mem_singleton] at hsg
  subst hsg
  simp only at s1 s2
  have hup := H2.wf.uptr_ge d
  have hfit := R.fit
  have hlow : buf + 48 ≤ r := by omega
  have hhigh : r + CHAIN_SIZE + 16 ≤ buf + MB2 := by omega
  have hbnd := I.high
  -- the structure is apart from the others
  have hnew : ∀ t ∈ Ω.ths, r + CHAIN_SIZE ≤ t.1 ∨ t.1 + CHAIN_SIZE ≤ r := by
    intro t ht
    obtain ⟨_, l, hl, e1, e2⟩ := I.ths t ht
    obtain ⟨k, hk, k1, k2, _⟩ := I.h.live.used l hl
    have hk2 : A2.Used k := (R.used k).2 (Or.inl hk)
    have hne : k ≠ d := fun g => R.fresh (g ▸ hk)
    have := H2.wf.has_disj hk2.1 hdU.1 hne
    have := H2.wf.uptr_ge k
    omega
  have hmine : ∀ x, r ≤ x → x < r + CHAIN_SIZE → Ω.mine x := by
    intro x h1 h2
    refine (I.mine x).2 ⟨Or.inr (by omega), fun t ht => ?_⟩
    have := hnew t ht
    omega
  -- the egg chain writes only in its own bytes
  have hq : ∀ x, ¬ Ω.mine x → h'.mem x = e.p.w.mem x := by
    intro x hx
    refine fr x ?_
    by_cases ht : ∃ t ∈ Ω.ths, t.1 ≤ x ∧ x < t.1 + CHAIN_SIZE
    · obtain ⟨t, ht, h1, h2⟩ := ht
      exact W.user_quiet (I.user ht h1 h2)
    · have hout : ¬ (PoolAt a x ∨ (buf ≤ x ∧ x < buf + MB2)) := by
        intro hc
        refine hx ((I.mine x).2 ⟨hc, fun t ht' => ?_⟩)
        by_contra hcc
        exact ht ⟨t, ht', by omega, by omega⟩
      have hns : ¬ A.SegAt x := fun g => hout (Or.inr (I.seg.1 g))
      exact W.outer_quiet ⟨fun g => hout (Or.inl g), Or.inl hns⟩
  obtain ⟨sg, hsg, sg1⟩ : ∃ g ∈ A.segs, (g.base, g.size) = (buf, MB2) :=
    mem_shape.1 (by rw [I.h.bufs]; simp)
  have hsz' : ∀ d ∈ Ω.blocs, hSize h'.mem d.1 = hSize e.p.w.mem d.1 := by
    intro d hd
    rw [I.blocs, List.mem_singleton] at hd
    subst hd
    have hbs : sg.base = buf := congrArg Prod.fst sg1
    exact readLE_congr (fun x h1 h2 => fr x (W.base_quiet hsg (by simp only at h1; omega) (by simp only at h2; omega)))
  obtain ⟨I1, k1⟩ := I.p.setEnv hq hsz'
  obtain ⟨p', ep, I2, k2, fm, eR, eS, elen⟩ := spawn_core I1 (a := r) (z := CHAIN_SIZE) (pb := r) (by omega) (by omega)
    (by unfold CHAIN_SIZE; omega) (by omega) (fun x h1 h2 => Or.inr (hmine x h1 h2)) (by
      intro d hd
      have hd : d ∈ Ω.blocs := hd
      rw [I.blocs, List.mem_singleton] at hd
      subst hd
      right; simp only; omega)
  refine ⟨⟨p', { e.egg with status := h'.status }⟩, _, A2, ⟨r, CHAIN_SIZE, decide (h ≤ 1)⟩ :: Lb, c, d, ?_, ⟨I2, ?_, I.blocs, ?_, ?_, ?_, I.high⟩, R, ?_, ?_, ?_, rfl, ?_, ?_, ?_, r, rfl, rfl⟩
  · unfold eggSpawn
    rw [hc, Outcome.ok_bind]
    simp only
    rw [if_neg hr0]
    have ep' : posixSpawn { e.p with w := (CS.setHeap ⟨e.p.w, e.egg⟩ h').w } r CHAIN_SIZE r = .ok p' := ep
    rw [ep', Outcome.ok_bind, Outcome.pure_eq]
    rfl
  · refine HInv.congrW (w := (CS.setHeap ⟨e.p.w, e.egg⟩ h').w) H2 (fun x hx => ?_) I2.regsOK
    refine fm x ?_
    by_contra hc
    have hu : A2.UserAt x := ⟨d, hdU, by omega, by unfold CHAIN_SIZE at *; omega⟩
    rcases hx with g | g
    · exact H2.wf.pool_seg (H2.wf.user_seg hu) g
    · exact g.2 hu
  · intro x
    simp only [Env.spawn, List.mem_append, List.mem_singleton]
    rw [I.mine x]
    constructor
    · rintro ⟨⟨h1, h2⟩, h3⟩
      refine ⟨h1, fun t ht => ?_⟩
      rcases ht with ht | rfl
      · exact h2 t ht
      · exact h3
    · rintro ⟨h1, h2⟩
      exact ⟨⟨h1, fun t ht => h2 t (Or.inl ht)⟩, h2 (r, r) (Or.inr rfl)⟩
  · intro t ht
    simp only [Env.spawn, List.mem_append, List.mem_singleton] at ht
    rcases ht with ht | rfl
    · obtain ⟨h1, l, hl, h2⟩ := I.ths t ht
      exact ⟨h1, l, List.mem_cons_of_mem _ hl, h2⟩
    · exact ⟨rfl, _, List.mem_cons_self, rfl, rfl⟩
  · simp only [Env.spawn]
    rw [List.pairwise_append]
    refine ⟨I.disj, by simp, fun t ht t' ht' => ?_⟩
    rw [List.mem_singleton] at ht'
    subst ht'
    have := hnew t ht
    simp only
    omega
  · simp [Env.spawn]
  · intro l hl hz x hx
    exact (k2 l hl hz x hx).trans (k1 l hl hz x hx)
  · exact elen
  · intro x h1 h2
    have hbs : sg.base = buf := congrArg Prod.fst sg1
    exact (fm x (by omega)).trans (fr x (W.base_quiet hsg (by omega) (by omega)))
  · intro l hl x hx
    refine (fm x ?_).trans (fr x (W.user_quiet (I.h.live.mem W hl hx)))
    obtain ⟨k, hk, k1, k2, _⟩ := I.h.live.used l hl
    have hk2 : A2.Used k := (R.used k).2 (Or.inl hk)
    have hne : k ≠ d := fun g => R.fresh (g ▸ hk)
    have := H2.wf.has_disj hk2.1 hdU.1 hne
    have := H2.wf.uptr_ge k
    have hx1 : l.ptr ≤ x ∧ x < l.ptr + l.len := hx
    clear fm fr
    unfold CHAIN_SIZE at *
    omega
  · have hu : (fun x => if r ≤ x ∧ x < r + CHAIN_SIZE then true else e.p.w.src.os.used x) = e.p.w.src.os.used := by
      funext x
      split
      · rename_i hx
        obtain ⟨H, L, D, B, _⟩ := I.p
        have hm := (B.ext (buf, MB2) (by show (buf, MB2) ∈ Ω.blocs; rw [I.blocs]; simp)).1
        exact (B.resU _ hm x (by simp only; omega) (by simp only; omega)).symm
      · rfl
    refine eS.trans ?_
    show { e.p.w.src with os := { e.p.w.src.os with used := (fun x => if r ≤ x ∧ x < r + CHAIN_SIZE then true else e.p.w.src.os.used x) } } = e.p.w.src
    rw [hu]

/-- Creation of a thread: there is no room in the egg chain, or the thread gets a structure. -/
theorem EInv.spawn {C : Config} (I : EInv cl e G a buf Ω A Lb) {h : Nat} (hb : GoodBound h)
    (hsz : h + CHAIN_SIZE + 16 < W64) :
    (eggSpawn C h e = .ub ∧
      ∀ c, A.Has c → c.st = .free → c.size ≤ MB2 → c.size < calcChunkSize (alignedSize h CHAIN_SIZE)) ∨
    ∃ e' Ω' A' Lb' c d, eggSpawn C h e = .ok e' ∧ EInv cl e' G a buf Ω' A' Lb' ∧ GotRel a A h CHAIN_SIZE c d A' ∧
      Ω'.ths.length = Ω.ths.length + 1 ∧ Keeps e.p e'.p G (fun _ => True) ∧
      e'.p.chs.length = e.p.chs.length + 1 := by
  rcases I.spawn_full (C := C) hb hsz with h | ⟨e', Ω', A', Lb', c, d, h1, h2, h3, h4, h5, h6, _⟩
  · exact Or.inl h
  · exact Or.inr ⟨e', Ω', A', Lb', c, d, h1, h2, h3, h4, h5, h6⟩

/-- One free chunk of at least `z` bytes. -/
def AHeap.FreeOne (A : AHeap) (z : Nat) : Prop :=
  ∃ f, A.Has f ∧ f.st = .free ∧ z ≤ f.size ∧ f.size ≤ MB2 ∧ ∀ x, A.Has x → x.st = .free → x = f

theorem GotRel.freeOne {pb : Nat} {A A' : AHeap} {b n : Nat} {c d : Ck} (R : GotRel pb A b n c d A') {z k : Nat}
    (h : A.FreeOne z) (hk : cutSize (alignedSize b n) + 16 ≤ k) (h16 : 16 ∣ cutSize (alignedSize b n)) (hz : k < z) :
    A'.FreeOne (z - k) := by
  obtain ⟨f, hf, h1, h2, h3, h4⟩ := h
  have hc : c = f := h4 c R.has R.free
  subst hc
  have hd := (R.wf.has_wf ((R.used d).2 (Or.inr rfl)).1).dvd
  have ht := R.tight
  have hlt : d.size < c.size := by omega
  refine ⟨⟨c.addr + d.size, c.size - d.size, .free⟩, (R.rest _ rfl).2 (Or.inr ⟨hlt, rfl⟩), rfl, ?_, ?_, ?_⟩
  · simp only; omega
  · simp only; omega
  · intro x hx hxf
    rcases (R.rest x hxf).1 hx with ⟨g1, g2⟩ | ⟨_, g⟩
    · exact absurd (h4 x g1 hxf) g2
    · exact g

/-- The start of the process, with the fields of the egg chain. -/
theorem eggInit_full {C : Config} {w : World Light} (S : EStart w a buf) {h : Nat} (hb : GoodBound h)
    (hsz : h + LIGHT_SIZE + 16 < W64) :
    (eggInit C h w a buf = .ub ∧ MB2 - 48 < calcChunkSize (alignedSize h LIGHT_SIZE)) ∨
    ∃ e Ω A Lb, eggInit C h w a buf = .ok e ∧ (∀ cl, EInv cl e ⟨[], []⟩ a buf Ω A Lb) ∧ Ω.ths = [] ∧
      e.p.chs = [] ∧ (h ≤ 1 → A.FreeOne (MB2 - 48 - 112)) ∧ e.egg.addr = a ∧ e.egg.threadSafe = true ∧
      e.egg.rfqHead = 0 ∧ e.egg.base = buf ∧ readLE e.p.w.mem (buf + 16) 8 = a ∧ e.p.w.src = w.src := by
  obtain ⟨w1, w2⟩ := S.high
  obtain ⟨w3, w4⟩ := S.above
  have w5 := S.apart
  have hv : ValidOp a [] [] (.refill buf MB2) :=
    ⟨by omega, S.align, by omega, by omega, by omega, by omega, by omega, by simp⟩
  obtain ⟨u, A, eu, H, I, gs, ga, gt, gm, gn, gb, gq, go, hall, gf⟩ := userStart_ok w (addr := a) (pb := a) true false
    (by omega) (by omega) S.regs hv w2 (by omega) S.none
  have hS : SizeOK [(buf, MB2)] h LIGHT_SIZE := by
    right
    refine ⟨?_, fun y hy => ?_⟩
    · split <;> omega
    · rw [List.mem_singleton] at hy; subst hy; simp only; omega
  obtain ⟨r, A', hR, W', hs⟩ := alloc_ok (lightSource C) H.wf hb (sizeOK_aligned H.wf H.bufs hS)
  obtain ⟨h', ea, M', fr, _⟩ := hs _ H.inv H.src
  obtain ⟨A2, hR2, H2, _⟩ := H.alloc (lightSource C) hb hS ea
  have hc : chainAlloc (lightSource C) h u LIGHT_SIZE = _ := ea
  by_cases hr0 : r = 0
  · left
    refine ⟨?_, ?_⟩
    · unfold eggInit
      rw [eu, Outcome.ok_bind, hc, Outcome.ok_bind]
      simp only
      rw [if_pos hr0]
    · rcases hR with ⟨_, _, hno⟩ | ⟨c, d, _, hd, hne⟩
      · exact hno (by unfold LIGHT_SIZE; omega) _ ((hall _).2 rfl) rfl (by simp only; omega)
      · exact absurd hr0 hne
  right
  rcases hR2 with ⟨h0, _⟩ | ⟨c, d, R, hd, _⟩
  · exact absurd h0 hr0
  obtain ⟨sg, hsg, sg1⟩ : ∃ g ∈ A.segs, (g.base, g.size) = (buf, MB2) :=
    mem_shape.1 (by rw [H.bufs]; simp)
  have hbs : sg.base = buf := congrArg Prod.fst sg1
  obtain ⟨o, ho⟩ := S.src
  have hsrc : u.w.src = Light.init o := gs.trans ho
  have hos : ∀ x, w.src.os.used x = true → o.used x = true := by
    intro x hx
    rw [ho] at hx
    exact hx
  refine ⟨⟨⟨(u.setHeap h').w, []⟩, (u.setHeap h').c⟩,
    ⟨[(buf, MB2)], fun x => PoolAt a x ∨ (buf ≤ x ∧ x < buf + MB2), h'.mem, []⟩, A2, _, ?_,
    fun cl => ⟨⟨[], [], [(0, MB2 + 1), (buf, MB2), (a, 1536)], ?_, ?_⟩, H2, rfl, ?_, by simp, by simp, w2⟩, rfl, rfl, ?_, ga, gt, gq, gb, ?_, gs⟩
  · unfold eggInit
    rw [eu, Outcome.ok_bind, hc, Outcome.ok_bind]
    simp only
    rw [if_neg hr0, Outcome.pure_eq]
    have := H.src
    simp [DEFAULT_SOURCE_ID, CS.setHeap, this]
  · have hD : ∀ d ∈ (⟨[(0, MB2 + 1), (buf, MB2), (a, 1536)],
        ⟨[(buf, MB2)], fun x => PoolAt a x ∨ (buf ≤ x ∧ x < buf + MB2), h'.mem, []⟩⟩ : Res),
        d = (0, MB2 + 1) ∨ d = (buf, MB2) ∨ d = (a, 1536) := by
      intro d hd
      simpa [Res.mem] using hd
    constructor
    · rfl
    · intro t c g h; cases h
    · show LInv h'.mem u.w.src [] []
      rw [hsrc]; exact Light.init_inv _ o
    · show RegInv h'.mem u.w.regs ([(buf, MB2)])
      refine I.congrMem (fun d hd => ?_)
      rw [List.mem_singleton] at hd
      subst hd
      exact readLE_congr (fun x h1 h2 => fr x (H.wf.base_quiet hsg (by simp only at h1; omega) (by simp only at h2; omega)))
    · simp [Res.mem]
    · intro d hd x h1 h2
      show u.w.src.os.used x = true
      rw [hsrc]
      apply hos
      rcases hD d hd with rfl | rfl | rfl
      · exact S.low x (by simp only at h2; omega)
      · exact S.buffer x h1 h2
      · exact S.heads x h1 h2
    · intro d _ e he; simp [shapes] at he
    · intro i j ci cj h; cases h
    · intro i j gi gj h; cases h
    · intro d hd
      have hd : d ∈ [(buf, MB2)] := hd
      rw [List.mem_singleton] at hd
      subst hd
      exact ⟨by simp [Res.mem], fun t g h => absurd h (by simp)⟩
    · refine ⟨fun x hx => ?_, fun x _ t g h => absurd h (by simp), fun x _ t c h => absurd h (by simp), fun x _ => rfl, rfl, rfl⟩
      rcases hx with hx | hx
      · exact ⟨(a, 1536), by simp [Res.mem], hx.1, hx.2⟩
      · exact ⟨(buf, MB2), by simp [Res.mem], hx.1, hx.2⟩
  · exact ⟨by simp, by simp, by simp, fun _ t g h => absurd h (by simp)⟩
  · intro x; simp
  · intro h1
    have hF : A.FreeOne (MB2 - 48) :=
      ⟨⟨buf + 32, MB2 - 48, .free⟩, (hall _).2 rfl, rfl, Nat.le_refl _, by simp only; omega, fun x hx _ => (hall x).1 hx⟩
    have hal : alignedSize h LIGHT_SIZE = 72 := by unfold alignedSize LIGHT_SIZE; rw [if_neg (by omega)]
    refine R.freeOne hF (k := 112) ?_ ?_ (by omega)
    · rw [hal]; decide
    · rw [hal]; decide
  · have hw : readLE u.w.mem (buf + 16) 8 = a := by rw [go, Nat.mod_eq_of_lt (by omega)]
    refine Eq.trans ?_ hw
    exact readLE_congr (fun x h1 h2 => fr x (H.wf.base_quiet hsg (by omega) (by omega)))

/-- The start of the process. -/
theorem eggInit_ok {C : Config} {w : World Light} (S : EStart w a buf) {h : Nat} (hb : GoodBound h)
    (hsz : h + LIGHT_SIZE + 16 < W64) :
    (eggInit C h w a buf = .ub ∧ MB2 - 48 < calcChunkSize (alignedSize h LIGHT_SIZE)) ∨
    ∃ e Ω A Lb, eggInit C h w a buf = .ok e ∧ (∀ cl, EInv cl e ⟨[], []⟩ a buf Ω A Lb) ∧ Ω.ths = [] ∧
      e.p.chs = [] ∧ (h ≤ 1 → A.FreeOne (MB2 - 48 - 112)) := by
  rcases eggInit_full (C := C) S hb hsz with h | ⟨e, Ω, A, Lb, h1, h2, h3, h4, h5, _⟩
  · exact Or.inl h
  · exact Or.inr ⟨e, Ω, A, Lb, h1, h2, h3, h4, h5⟩

/-- The invariant of the reachable states. -/
theorem EReach.inv {C : Config} {X : EOp → Prop} (hf : C.reallocFactor ≠ 0) (R : EReach C X e G)
    (hX : cl → ∀ op, X (.call op) → CleanOp op) :
    ∃ a buf Ω A Lb, EInv cl e G a buf Ω A Lb ∧ Ω.ths.length = e.p.chs.length ∧
      ((∀ h, X (.spawn h) → h ≤ 1) → Ω.ths.length ≤ 1224 → A.FreeOne (MB2 - 48 - 112 - 1712 * Ω.ths.length)) := by
  induction R with
  | @init w a buf h e S hb hs hx ei =>
    rcases eggInit_ok (C := C) S hb hs with ⟨e1, _⟩ | ⟨e', Ω, A, Lb, e1, I, h1, h2, h3⟩
    · rw [ei] at e1; cases e1
    · rw [ei] at e1
      cases e1
      refine ⟨a, buf, Ω, A, Lb, I cl, by rw [h1, h2]; rfl, fun hh _ => ?_⟩
      rw [h1]
      exact h3 (hh h hx)
  | @step e e' G op r _ hv hx ex ih =>
    obtain ⟨a, buf, Ω, A, Lb, I, hl, hF⟩ := ih
    cases op with
    | call op =>
      rcases I.call hf hv (fun c => hX c op hx) with ⟨_, e1⟩ | ⟨e2, r2, e1, I', _⟩
      · rw [ex] at e1; cases e1
      · rw [ex] at e1
        cases e1
        refine ⟨a, buf, Ω, A, Lb, I', ?_, hF⟩
        obtain ⟨H, L, D, B, _⟩ := I'.p
        have := congrArg List.length B.env.addrs
        simpa using this.symm
    | spawn h =>
      rcases I.spawn (C := C) hv.1 hv.2 with ⟨e1, _⟩ | ⟨e2, Ω', A', Lb', c, d, e1, I', Rg, hl', _, hlen⟩
      · unfold eexec at ex
        simp only at ex
        rw [e1] at ex; cases ex
      · unfold eexec at ex
        simp only at ex
        rw [e1, Outcome.ok_bind, Outcome.pure_eq] at ex
        cases ex
        refine ⟨a, buf, Ω', A', Lb', I', by rw [hl', hlen, hl], fun hh hle => ?_⟩
        have h1 := hF hh (by omega)
        have hal : alignedSize h CHAIN_SIZE = 1680 := by
          unfold alignedSize CHAIN_SIZE; rw [if_neg (by have := hh h hx; omega)]
        have := Rg.freeOne h1 (k := 1712) (by rw [hal]; decide) (by rw [hal]; decide) (by omega)
        rw [hl']
        rw [show MB2 - 48 - 112 - 1712 * (Ω.ths.length + 1) = MB2 - 48 - 112 - 1712 * Ω.ths.length - 1712 by omega]
        exact this

end MpcAlloc
