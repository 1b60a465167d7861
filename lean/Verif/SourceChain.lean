import Verif.LightSource
import Verif.ChainRealloc
import Verif.PropsRegion

/-
Chains fed by the light memory source: invariant, and effect of requests, allocations and frees.

One chain is considered, together with the source and the table of regions which it shares with other chains: `O` are
the blocs that other chains hold, `P` the reserved areas (structures of the chains).
-/

namespace MpcAlloc

/-- The chain `c` represents the abstract heap `A`. -/
structure ChSt (pb : Nat) (m : Mem) (c : Chain) (A : AHeap) : Prop where
  wf : A.WF pb
  pool : c.pool = stdPool pb
  mem : MemOK (stdPool pb) ⟨m, c.status⟩ A
  dead : c.dead = false
  lock : c.lock = false
  base : c.base = 0
  src : c.hasSrc = true
  handler : c.handler = false ∧ c.calls = 0
  region : c.noRegion = false
  cnt : c.cnt = A.segs.length
  /-- a bloc is of 2 MB, or is covered by one used chunk -/
  seg : ∀ d ∈ A.shape, d.2 % MB2 = 0 ∧ (d.2 = MB2 ∨ ∃ k, A.Used k ∧ k.addr = d.1 + 32 ∧ k.size = d.2 - 48)
  /-- the blocs know their chain -/
  own : ∀ d ∈ A.shape, readLE m (d.1 + 16) 8 = c.addr % W64
  noAdj : c.noMerge = false → A.NoAdj
  /-- a block has place for an entry of the remote free queue -/
  room : ∀ k, A.Used k → k.uptr + 16 ≤ k.addr + k.size

/-- What the chains of the threads share the process with: registered blocs of another chain, memory that is not theirs
with its contents, and the addresses of the structures of the chains, each with that of its list heads. -/
structure Env where
  blocs : List (Nat × Nat)
  mine : Nat → Prop
  val : Nat → UInt8
  ths : List (Nat × Nat)

/-- The reserved areas: memory in use that no bloc of the chains covers. -/
structure Res where
  areas : List (Nat × Nat)
  env : Env

instance : Membership (Nat × Nat) Res := ⟨fun P d => d ∈ P.areas⟩

theorem Res.mem {P : Res} {d : Nat × Nat} : d ∈ P ↔ d ∈ P.areas := Iff.rfl

/-- The chain, the source and the regions. -/
structure SInv (pb : Nat) (s : CS Light) (A : AHeap) (O L : List (Nat × Nat)) (P : Res) : Prop where
  ch : ChSt pb s.w.mem s.c A
  lin : LInv s.w.mem s.w.src (A.shape ++ O) L
  reg : RegInv s.w.mem s.w.regs (A.shape ++ O ++ P.env.blocs)
  pool : (pb, 1536) ∈ P
  resU : ∀ d ∈ P, ∀ x, d.1 ≤ x → x < d.1 + d.2 → s.w.src.os.used x = true
  resD : ∀ d ∈ P, ∀ e ∈ (A.shape ++ O) ++ L, ∀ x, d.1 ≤ x → x < d.1 + d.2 → x < e.1 ∨ e.1 + e.2 ≤ x
  /-- the other registered blocs are reserved, with a header apart from the list heads -/
  ext : ∀ d ∈ P.env.blocs, d ∈ P ∧ (pb + 1536 ≤ d.1 ∨ d.1 + 16 ≤ pb)

/-- The other registered blocs are apart from what does not meet the reserved areas. -/
theorem SInv.extApart {pb : Nat} {s : CS Light} {A : AHeap} {O L : List (Nat × Nat)} {P : Res} (I : SInv pb s A O L P)
    {b sz : Nat} (hsz : 0 < sz) (h : ∀ d ∈ P, ∀ x, d.1 ≤ x → x < d.1 + d.2 → x < b ∨ b + sz ≤ x) {d : Nat × Nat}
    (hd : d ∈ P.env.blocs) : Apart (b, sz) d := by
  have h1 := (I.reg.bloc d (List.mem_append_right _ hd)).2.1
  have h2 := h d (I.ext d hd).1 d.1 (by omega) (by omega)
  have h3 := h d (I.ext d hd).1 b
  unfold Apart
  simp only
  omega

theorem ChSt.inv {pb : Nat} {s : CS Light} {A : AHeap} (H : ChSt pb s.w.mem s.c A) : ChainInv pb s A :=
  ⟨H.pool, H.mem, H.dead, H.lock, fun h => absurd H.base h⟩

theorem mem_shape {A : AHeap} {d : Nat × Nat} : d ∈ A.shape ↔ ∃ g ∈ A.segs, (g.base, g.size) = d := by
  unfold AHeap.shape; rw [List.mem_map]

/-- Memory outside of the blocs and of the list heads does not matter. -/
theorem ChSt.congr {pb : Nat} {m m' : Mem} {c : Chain} {A : AHeap} (H : ChSt pb m c A)
    (e : ∀ x, PoolAt pb x ∨ A.SegAt x → m' x = m x) : ChSt pb m' c A := by
  refine ⟨H.wf, H.pool, ?_, H.dead, H.lock, H.base, H.src, H.handler, H.region, H.cnt, H.seg, ?_, H.noAdj, H.room⟩
  · exact H.mem.congr H.wf (fun x hx => e x (by rcases hx with h | h; exacts [Or.inl h, Or.inr h.1]))
  · intro d hd
    rw [← H.own d hd]
    obtain ⟨g, hg, rfl⟩ := mem_shape.1 hd
    have := (H.wf.seg g hg).ge
    refine readLE_congr (fun x h1 h2 => e x (Or.inr ⟨g, hg, ?_, ?_⟩)) <;> simp only at * <;> omega

theorem LInv.perm {m : Mem} {s : Light} {O O' L : List (Nat × Nat)} (I : LInv m s O L) (h : O.Perm O') :
    LInv m s O' L := by
  refine ⟨I.cache, I.lock, by rw [I.cnt, h.length_eq], I.size, fun d hd => I.good d ?_, ?_, fun d hd => I.hdr d (h.mem_iff.2 hd)⟩
  · exact (h.append_right L).mem_iff.2 hd
  · exact ((h.append_right L).pairwise_iff (fun h => Apart.symm h)).1 I.apart

theorem RegInv.congrSet {m : Mem} {R : Regions} {B B' : List (Nat × Nat)} (I : RegInv m R B)
    (h : ∀ d, d ∈ B' ↔ d ∈ B) : RegInv m R B' := by
  refine ⟨I.ok, fun d hd => I.bloc d ((h d).1 hd), fun d hd f hf => I.disj d ((h d).1 hd) f ((h f).1 hf),
    fun d hd => I.set d ((h d).1 hd), fun k hk => ?_⟩
  obtain ⟨d, hd, r⟩ := I.own k hk
  exact ⟨d, (h d).2 hd, r⟩

theorem RegInv.congrMem {m m' : Mem} {R : Regions} {B : List (Nat × Nat)} (I : RegInv m R B)
    (h : ∀ d ∈ B, hSize m' d.1 = hSize m d.1) : RegInv m' R B := by
  refine ⟨I.ok, fun d hd => ?_, I.disj, I.set, I.own⟩
  have := I.bloc d hd
  exact ⟨this.1, this.2.1, this.2.2.1, this.2.2.2.1, by rw [h d hd]; exact this.2.2.2.2⟩

/-- Size of the bloc requested for `n` bytes. -/
def blocSize (n : Nat) : Nat := (n + 48 + (MB2 - 1)) / MB2 * MB2

theorem requestSize_eq {n : Nat} (h : n + 48 + MB2 ≤ W64) : requestSize n = blocSize n := by
  unfold requestSize blocSize
  simp only
  rw [add64_eq (by omega)]
  split
  · rw [add64_eq (by omega)]; omega
  · omega

theorem blocSize_facts (n : Nat) : blocSize n % MB2 = 0 ∧ n + 48 ≤ blocSize n ∧ MB2 ≤ blocSize n ∧
    blocSize n < n + 48 + MB2 := by
  unfold blocSize; omega

theorem addCtx_shape {A : AHeap} {b sz : Nat} {l : List Ck} {fl : Nat → List Ck} :
    ((addCtx A b sz).fill l fl).shape = A.shape ++ [(b, sz)] := by
  simp [AHeap.shape, Ctx.fill, addCtx, Ctx.seg]

theorem addCtx_used {A : AHeap} {b sz : Nat} {fl : Nat → List Ck} (x : Ck) :
    ((addCtx A b sz).fill [addCk b sz] fl).Used x ↔ A.Used x ∨ x = addCk b sz := by
  rw [Ctx.used]
  constructor
  · rintro ⟨h1 | h1, h2⟩
    · exact Or.inr (by simpa using h1)
    · exact Or.inl ((Ctx.used_add x h2).1 h1)
  · rintro (h | rfl)
    · exact ⟨Or.inr ((Ctx.used_add x h.2).2 h), h.2⟩
    · exact ⟨Or.inl (by simp), none, rfl⟩

/-- The kernel has no pages for the bloc, and no cached bloc may be used. -/
def Refused (C : Config) (s : CS Light) (L : List (Nat × Nat)) (n : Nat) : Prop :=
  ¬ s.w.src.os.Fresh (s.w.src.os.ans s.w.src.os.k) (blocSize n) ∧
    (blocSize n ≤ C.keepMax → ∀ d ∈ L, d.2 ≠ blocSize n)

/-- What a request for a bloc does. -/
structure NewBloc (pb : Nat) (s : CS Light) (A : AHeap) (O L : List (Nat × Nat)) (P : Res) (sz b : Nat) (s' : CS Light)
    (L' : List (Nat × Nat)) : Prop where
  inv : SInv pb s' ((addCtx A b sz).fill [addCk b sz] A.fl) O L' P
  fresh : FreshSeg pb A b sz
  chain : s'.c = { s.c with cnt := s.c.cnt + 1 }
  sub : ∀ d ∈ L', d ∈ L
  used : ∀ x, s.w.src.os.used x = true → s'.w.src.os.used x = true
  bloc : (b, sz) ∈ L ∨ ∀ x, b ≤ x → x < b + sz → s.w.src.os.used x = false
  frame : ∀ x, (∀ d ∈ L, x < d.1 ∨ d.1 + d.2 ≤ x) → (x < b ∨ b + sz ≤ x) → s'.w.mem x = s.w.mem x

/-- The state with another value of the lock. -/
def CS.lk (s : CS Light) (l : Bool) : CS Light := { s with c := { s.c with lock := l } }

theorem requestMem_ok {C : Config} {pb : Nat} {s : CS Light} {A : AHeap} {O L : List (Nat × Nat)} {P : Res} {n : Nat}
    (I : SInv pb s A O L P) (l : Bool) (hn : n + 48 + MB2 ≤ W64) :
    (Refused C s L n ∧ requestMem (lightSource C) (s.lk l) n = .ub) ∨
    ∃ s' b L', requestMem (lightSource C) (s.lk l) n = .ok (s'.lk l, b + 47) ∧ NewBloc pb s A O L P (blocSize n) b s' L' := by
  obtain ⟨z1, z2, z3, z4⟩ := blocSize_facts n
  have hreq : requestMem (lightSource C) (s.lk l) n = (do
      let (m, src, bloc) ← lightRequest C s.w.mem s.w.src (blocSize n)
      let (s, v) ← prepareBloc { s.lk l with w := { s.w with mem := m, src := src } } bloc
      if v = 0 then return (s, 0)
      else return ({ s with c := { s.c with cnt := s.c.cnt + 1 } }, v)) := by
    unfold requestMem
    rw [if_neg (by simp [CS.lk, I.ch.src]), requestSize_eq hn]
    rfl
  rw [hreq]
  generalize hsz : blocSize n = sz at *
  rcases lightRequest_ok (C := C) I.lin (size := sz) (by omega) (by omega) with ⟨r1, r2, r3⟩ | ⟨m1, src1, b, L', e1, r⟩
  · left
    refine ⟨⟨by rw [hsz]; exact r1, by rw [hsz]; exact r2⟩, ?_⟩
    rw [r3]; rfl
  · right
    have gb := r.inv.good (b, sz) (by simp)
    have g1 := gb.nz
    have g2 := gb.page
    have g3 := gb.high
    simp only at g1 g2 g3
    have hap := (List.pairwise_cons.1 r.inv.apart).1
    -- the reserved areas are not in the new bloc
    have hres : ∀ d ∈ P, ∀ x, d.1 ≤ x → x < d.1 + d.2 → x < b ∨ b + sz ≤ x := by
      intro d hd x hx1 hx2
      rcases r.fresh with h | h
      · exact I.resD d hd (b, sz) (List.mem_append_right _ h) x hx1 hx2
      · by_contra hc
        have h1 := h x (by omega) (by omega)
        have h2 := I.resU d hd x hx1 hx2
        rw [h1] at h2; cases h2
    have F : FreshSeg pb A b sz := by
      refine ⟨by omega, by omega, by omega, by omega, by omega, by omega, ?_, ?_⟩
      · have h1 := hres (pb, 1536) I.pool pb (by simp) (by simp)
        have h2 := hres (pb, 1536) I.pool (pb + 1535) (by simp) (by simp)
        have h3 : ¬ (pb < b ∧ b < pb + 1536) := by
          intro h
          have := hres (pb, 1536) I.pool b (by simp; omega) (by simp; omega)
          omega
        omega
      · intro g hg
        have h1 := hap (g.base, g.size) (List.mem_append_left _ (List.mem_append_left _ (mem_shape.2 ⟨g, hg, rfl⟩)))
        unfold Apart at h1
        simp only at h1
        omega
    -- memory that the chain relies on is untouched by the source
    have hout : ∀ x, PoolAt pb x ∨ A.SegAt x → m1 x = s.w.mem x := by
      intro x hx
      apply r.frame
      · intro d hd
        rcases hx with ⟨h1, h2⟩ | ⟨g, hg, h1, h2⟩
        · exact I.resD (pb, 1536) I.pool d (List.mem_append_right _ hd) x h1 h2
        · have h3 := (List.pairwise_append.1 I.lin.apart).2.2 (g.base, g.size)
            (List.mem_append_left _ (mem_shape.2 ⟨g, hg, rfl⟩)) d hd
          unfold Apart at h3
          simp only at h3
          omega
      · rcases hx with ⟨h1, h2⟩ | ⟨g, hg, h1, h2⟩
        · have := F.pool; omega
        · have := F.disj g hg; omega
    have H1 := I.ch.congr hout
    have hapB : ∀ d ∈ A.shape ++ O ++ P.env.blocs, Apart (b, sz) d := by
      intro d hd
      rcases List.mem_append.1 hd with hd | hd
      · exact hap d (List.mem_append_left _ hd)
      · exact I.extApart (by omega) hres hd
    have hsize1 : hSize m1 b = sz := r.inv.hdr (b, sz) (by simp)
    have hregfree : RegFree s.w.regs b sz := by
      refine ⟨I.reg.ok, by omega, fun k h1 h2 => ?_⟩
      by_contra hne
      obtain ⟨d, hd, h3, h4, h5⟩ := I.reg.own k hne
      have h6 := hapB d hd
      have h7 := I.reg.bloc d hd
      unfold Apart at h6
      simp only at h6
      omega
    obtain ⟨m2, R2, e2, M2, hreg, hown, f2⟩ := prepareBloc_ok
      (s := { s.lk l with w := { s.w with mem := m1, src := src1 } }) H1.wf H1.mem F hsize1 r.info (fun _ => hregfree)
    rw [e1, Outcome.ok_bind]
    simp only
    rw [e2, Outcome.ok_bind]
    simp only
    rw [if_neg (by omega)]
    have hreg' : R2.OK ∧ R2.ent = entSet s.w.regs.ent (b / MB2) (b / MB2 + sz / MB2) b := by
      unfold RegDone at hreg
      simp only [CS.lk, I.ch.region] at hreg
      rw [if_neg (by simp)] at hreg
      rw [div_ceil z1] at hreg
      exact hreg
    have hm2 : ∀ d ∈ (A.shape ++ O) ++ L', ∀ x, d.1 ≤ x → x < d.1 + d.2 → m2 x = m1 x := by
      intro d hd x h1 h2
      have h3 := hap d hd
      unfold Apart at h3
      simp only at h3
      exact f2 x (by omega)
    have hgood : ∀ d ∈ (A.shape ++ O) ++ L', 4096 ≤ d.2 := by
      intro d hd
      have k1 := (r.inv.good d (List.mem_cons_of_mem _ hd)).pos
      have k2 := (r.inv.good d (List.mem_cons_of_mem _ hd)).mul
      omega
    have hsz2 : ∀ d ∈ A.shape ++ O, hSize m2 d.1 = d.2 := by
      intro d hd
      have h1 := hgood d (List.mem_append_left _ hd)
      rw [← r.inv.hdr d (List.mem_cons_of_mem _ hd)]
      exact readLE_congr (fun x hx1 hx2 => hm2 d (List.mem_append_left _ hd) x (by omega) (by omega))
    have hsz2E : ∀ d ∈ A.shape ++ O ++ P.env.blocs, hSize m2 d.1 = d.2 := by
      intro d hd
      rcases List.mem_append.1 hd with hd' | hd'
      · exact hsz2 d hd'
      · have h1 := I.reg.bloc d hd
        have h2 := (I.ext d hd').1
        refine (readLE_congr (fun x hx1 hx2 => ?_)).trans h1.2.2.2.2
        have h3 := hres d h2 x hx1 (by omega)
        rw [f2 x h3]
        exact r.frame x (fun e he => I.resD d h2 e (List.mem_append_right _ he) x hx1 (by omega)) h3
    have hsz2b : hSize m2 b = sz := by
      have := (M2.segs ((addCtx A b sz).seg [addCk b sz]) (Ctx.seg_mem _ _ _)).size
      exact this
    have hperm : ((b, sz) :: (A.shape ++ O)).Perm ((A.shape ++ [(b, sz)]) ++ O) := by
      rw [List.append_assoc]
      exact List.perm_middle.symm
    refine ⟨{ w := { s.w with mem := m2, regs := R2, src := src1 }, c := { s.c with cnt := s.c.cnt + 1 } }, b, L', rfl,
      ⟨⟨?_, ?_, ?_, I.pool, ?_, ?_, I.ext⟩, F, rfl, r.sub, r.used, r.fresh, ?_⟩⟩
    · -- the chain
      refine ⟨wf_addSeg I.ch.wf F, I.ch.pool, M2, I.ch.dead, I.ch.lock, I.ch.base, I.ch.src, I.ch.handler, I.ch.region,
        ?_, ?_, ?_, ?_, ?_⟩
      · have : (s.c.cnt : Int) = A.segs.length := I.ch.cnt
        simp only [this, Ctx.fill, addCtx, List.length_append, List.length_cons, List.length_nil]
        omega
      · rw [addCtx_shape]
        intro d hd
        rcases List.mem_append.1 hd with hd | hd
        · obtain ⟨h1, h2⟩ := I.ch.seg d hd
          refine ⟨h1, h2.imp_right ?_⟩
          rintro ⟨k, hk, hk'⟩
          exact ⟨k, (addCtx_used k).2 (Or.inl hk), hk'⟩
        · have hd : d = (b, sz) := by simpa using hd
          subst hd
          exact ⟨z1, Or.inr ⟨addCk b sz, (addCtx_used _).2 (Or.inr rfl), rfl, rfl⟩⟩
      · rw [addCtx_shape]
        intro d hd
        rcases List.mem_append.1 hd with hd | hd
        · have h1 := hgood d (List.mem_append_left _ (List.mem_append_left _ hd))
          rw [← H1.own d hd]
          exact readLE_congr (fun x hx1 hx2 => hm2 d (List.mem_append_left _ (List.mem_append_left _ hd)) x
            (by omega) (by omega))
        · have hd : d = (b, sz) := by simpa using hd
          subst hd
          exact hown I.ch.region
      · intro h
        exact noAdj_addCtx _ (I.ch.noAdj h)
      · intro k hk
        rcases (addCtx_used k).1 hk with h | h
        · exact I.ch.room k h
        · subst h
          unfold Ck.uptr Ck.off addCk
          simp only
          omega
    · -- the source
      rw [addCtx_shape]
      refine LInv.perm ?_ hperm
      refine r.inv.congr (fun d hd x hx1 hx2 => ?_) (fun d hd => ?_)
      · have := hgood d (List.mem_append_right _ hd)
        exact hm2 d (List.mem_append_right _ hd) x (by omega) (by omega)
      · rcases List.mem_cons.1 hd with rfl | hd
        · simp only; rw [hsz2b, hsize1]
        · rw [hsz2 d hd, r.inv.hdr d (List.mem_cons_of_mem _ hd)]
    · -- the regions
      rw [addCtx_shape]
      refine RegInv.congrSet (B := (b, sz) :: (A.shape ++ O ++ P.env.blocs)) ?_
        (fun d => (hperm.append_right _).mem_iff.symm)
      refine ⟨hreg'.1, ?_, ?_, ?_, ?_⟩
      · intro d hd
        rcases List.mem_cons.1 hd with rfl | hd
        · exact ⟨by simp only; omega, by simp only; omega, z1, by simp only; omega, hsz2b⟩
        · have := I.reg.bloc d hd
          exact ⟨this.1, this.2.1, this.2.2.1, this.2.2.2.1, hsz2E d hd⟩
      · intro d hd f hf
        rcases List.mem_cons.1 hd with rfl | hd <;> rcases List.mem_cons.1 hf with rfl | hf
        · exact Or.inl rfl
        · exact Or.inr (hapB f hf)
        · exact Or.inr (hapB d hd).symm
        · exact I.reg.disj d hd f hf
      · intro d hd k h1 h2
        simp only
        rw [hreg'.2]
        unfold entSet
        rcases List.mem_cons.1 hd with rfl | hd
        · rw [if_pos ⟨h1, h2⟩]
        · have h3 := hapB d hd
          have h4 := I.reg.bloc d hd
          unfold Apart at h3
          simp only at h3
          rw [if_neg (by omega)]
          exact I.reg.set d hd k h1 h2
      · intro k hk
        simp only at hk ⊢
        rw [hreg'.2] at hk ⊢
        unfold entSet at hk ⊢
        by_cases hc : b / MB2 ≤ k ∧ k < b / MB2 + sz / MB2
        · exact ⟨(b, sz), List.mem_cons_self, by rw [if_pos hc], hc.1, hc.2⟩
        · rw [if_neg hc] at hk
          obtain ⟨d, hd, h⟩ := I.reg.own k hk
          exact ⟨d, List.mem_cons_of_mem _ hd, by rw [if_neg hc]; exact h.1, h.2⟩
    · intro d hd x hx1 hx2
      exact r.used x (I.resU d hd x hx1 hx2)
    · rw [addCtx_shape]
      intro d hd e he x hx1 hx2
      have he' : e = (b, sz) ∨ e ∈ (A.shape ++ O) ++ L' := by simp at he ⊢; grind
      rcases he' with rfl | he'
      · exact hres d hd x hx1 hx2
      · refine I.resD d hd e ?_ x hx1 hx2
        rcases List.mem_append.1 he' with h | h
        · exact List.mem_append_left _ h
        · exact List.mem_append_right _ (r.sub e h)
    · intro x hx1 hx2
      simp only
      rw [f2 x hx2]
      exact r.frame x hx1 hx2

/-! ### Changes inside of the blocs of the chain -/

/-- Bytes that the pool functions leave alone: outside of the list heads, and outside of the blocs or in the header of
a bloc. -/
def AHeap.Outer (pb : Nat) (A : AHeap) (x : Nat) : Prop :=
  ¬ PoolAt pb x ∧ (¬ A.SegAt x ∨ ∃ g ∈ A.segs, g.base ≤ x ∧ x < g.base + 32)

theorem AHeap.WF.outer_quiet {pb : Nat} {A : AHeap} (W : A.WF pb) {x : Nat} (h : A.Outer pb x) : Quiet pb A x := by
  rcases h.2 with h2 | ⟨g, hg, h2, h3⟩
  · exact W.outside_quiet h.1 h2
  · exact W.base_quiet hg h2 h3

theorem SInv.outer {pb : Nat} {s : CS Light} {A : AHeap} {O L : List (Nat × Nat)} {P : Res} (I : SInv pb s A O L P)
    {d : Nat × Nat} (hd : d ∈ O ++ L) {x : Nat} (h1 : d.1 ≤ x) (h2 : x < d.1 + d.2) : A.Outer pb x := by
  refine ⟨fun h => ?_, Or.inl ?_⟩
  · have := I.resD (pb, 1536) I.pool d (by rw [List.append_assoc]; exact List.mem_append_right _ hd) x h.1 h.2
    omega
  · rintro ⟨g, hg, g1, g2⟩
    have h3 := I.lin.apart
    rw [List.append_assoc] at h3
    have h4 := (List.pairwise_append.1 h3).2.2 (g.base, g.size) (mem_shape.2 ⟨g, hg, rfl⟩) d hd
    unfold Apart at h4
    simp only at h4
    omega

theorem SInv.outerHdr {pb : Nat} {s : CS Light} {A : AHeap} {O L : List (Nat × Nat)} {P : Res} (I : SInv pb s A O L P)
    {d : Nat × Nat} (hd : d ∈ A.shape) {x : Nat} (h1 : d.1 ≤ x) (h2 : x < d.1 + 32) : A.Outer pb x := by
  obtain ⟨g, hg, rfl⟩ := mem_shape.1 hd
  simp only at h1 h2
  refine ⟨fun h => ?_, Or.inr ⟨g, hg, h1, h2⟩⟩
  have := I.ch.wf.pool g hg
  have := (I.ch.wf.seg g hg).ge
  unfold PoolAt at h
  omega

/-- Reserved areas are out of the blocs. -/
theorem SInv.resSeg {pb : Nat} {s : CS Light} {A : AHeap} {O L : List (Nat × Nat)} {P : Res} (I : SInv pb s A O L P)
    {d : Nat × Nat} (hd : d ∈ P) {x : Nat} (h1 : d.1 ≤ x) (h2 : x < d.1 + d.2) : ¬ A.SegAt x := by
  rintro ⟨g, hg, g1, g2⟩
  have := I.resD d hd (g.base, g.size)
    (List.mem_append_left _ (List.mem_append_left _ (mem_shape.2 ⟨g, hg, rfl⟩))) x h1 h2
  simp only at this
  omega

/-- The headers of the other registered blocs are kept. -/
theorem SInv.extHdr {pb : Nat} {s : CS Light} {A : AHeap} {O L : List (Nat × Nat)} {P : Res} (I : SInv pb s A O L P)
    {d : Nat × Nat} (hd : d ∈ P.env.blocs) {m : Mem} (h : ∀ x, A.Outer pb x → m x = s.w.mem x) :
    hSize m d.1 = hSize s.w.mem d.1 := by
  have h1 := I.reg.bloc d (List.mem_append_right _ hd)
  have h2 := I.ext d hd
  refine readLE_congr (fun x hx1 hx2 => h x ⟨?_, Or.inl ?_⟩)
  · unfold PoolAt; omega
  · exact I.resSeg h2.1 hx1 (by omega)

/-- The heap of the chain is changed to `A'`, with the same blocs. -/
theorem SInv.update {pb : Nat} {s : CS Light} {A A' : AHeap} {O L : List (Nat × Nat)} {P : Res} {h : Heap}
    (I : SInv pb s A O L P) (W : A'.WF pb) (M : MemOK (stdPool pb) h A') (hsh : A'.shape = A.shape)
    (hna : s.c.noMerge = false → A'.NoAdj)
    (hseg : ∀ d ∈ A.shape, d.2 = MB2 ∨ ∃ k, A'.Used k ∧ k.addr = d.1 + 32 ∧ k.size = d.2 - 48)
    (hroom : ∀ k, A'.Used k → k.uptr + 16 ≤ k.addr + k.size)
    (frame : ∀ x, A.Outer pb x → h.mem x = s.w.mem x) : SInv pb (s.setHeap h) A' O L P := by
  have hlen : A'.segs.length = A.segs.length := by
    have := congrArg List.length hsh
    simpa [AHeap.shape] using this
  have hbig : ∀ d ∈ (A.shape ++ O) ++ L, 4096 ≤ d.2 := by
    intro d hd
    have k1 := (I.lin.good d hd).pos
    have k2 := (I.lin.good d hd).mul
    omega
  have hsz : ∀ d ∈ A.shape ++ O, hSize h.mem d.1 = hSize s.w.mem d.1 := by
    intro d hd
    have h4 := hbig d (List.mem_append_left _ hd)
    refine readLE_congr (fun x h1 h2 => frame x ?_)
    rcases List.mem_append.1 hd with hd | hd
    · exact I.outerHdr hd (by omega) (by omega)
    · exact I.outer (List.mem_append_left _ hd) (by omega) (by omega)
  refine ⟨⟨W, I.ch.pool, M, I.ch.dead, I.ch.lock, I.ch.base, I.ch.src, I.ch.handler, I.ch.region, ?_, ?_, ?_, hna,
    hroom⟩, ?_, ?_, I.pool, I.resU, ?_, I.ext⟩
  · rw [hlen]; exact I.ch.cnt
  · rw [hsh]; exact fun d hd => ⟨(I.ch.seg d hd).1, hseg d hd⟩
  · rw [hsh]
    intro d hd
    have h4 := hbig d (List.mem_append_left _ (List.mem_append_left _ hd))
    refine Eq.trans (readLE_congr (fun x h1 h2 => ?_)) (I.ch.own d hd)
    exact frame x (I.outerHdr hd (by omega) (by omega))
  · rw [hsh]
    refine I.lin.congr (fun d hd x h1 h2 => frame x ?_) hsz
    have h4 := hbig d (List.mem_append_right _ hd)
    exact I.outer (List.mem_append_right _ hd) (by omega) (by omega)
  · rw [hsh]
    refine I.reg.congrMem (fun d hd => ?_)
    rcases List.mem_append.1 hd with hd' | hd'
    · exact hsz d hd'
    · exact I.extHdr hd' (fun x hx => frame x hx)
  · rw [hsh]; exact I.resD

/-- Place for an entry of the remote free queue. -/
theorem room_of {a sz b n u : Nat} (ha : 16 ∣ a) (hs : 16 ∣ sz) (h32 : 32 ≤ sz) (hb : GoodBound b) (hn : n ≠ 0)
    (fit : u + n ≤ a + sz) (ptr : u = if b ≤ 1 ∨ (a + 16) % b = 0 then a + 16 else alignUp (a + 24) b) :
    u + 16 ≤ a + sz := by
  by_cases hc : b ≤ 1 ∨ (a + 16) % b = 0
  · rw [if_pos hc] at ptr; omega
  · rw [if_neg hc] at ptr
    have hb1 : ¬ b ≤ 1 := fun h => hc (Or.inl h)
    obtain ⟨k, rfl⟩ := hb.resolve_left hb1
    have hk : 4 ≤ k := by
      by_contra hk
      have : 2 ^ k ∣ 16 := by
        have : (16 : Nat) = 2 ^ 4 := rfl
        rw [this]
        exact Nat.pow_dvd_pow 2 (by omega)
      exact hc (Or.inr (Nat.mod_eq_zero_of_dvd (Dvd.dvd.trans this (by omega))))
    have h16 : 16 ∣ 2 ^ k := by
      have : (16 : Nat) = 2 ^ 4 := rfl
      rw [this]
      exact Nat.pow_dvd_pow 2 hk
    have hu : 16 ∣ u := by
      rw [ptr]
      exact Dvd.dvd.trans h16 (alignUp_dvd (Nat.two_pow_pos k))
    omega

/-! ### Allocation -/

/-- Every bloc holds a used chunk. -/
def AHeap.Busy (A : AHeap) : Prop := ∀ d ∈ A.shape, ∃ c, A.Used c ∧ d.1 ≤ c.addr ∧ c.addr < d.1 + d.2

/-- The request of a huge block of `N` bytes leaves room for the end mark of the bloc (see finding 25 of DESIGN.md). -/
def Fits (N : Nat) : Prop := calcChunkSize N ≤ 1048576 ∨ N + 64 ≤ blocSize N

/-- What an allocation does. -/
structure SAlloc (pb : Nat) (s : CS Light) (A : AHeap) (O L : List (Nat × Nat)) (P : Res) (b n : Nat) (d : Ck) (s' : CS Light)
    (A' : AHeap) (L' : List (Nat × Nat)) : Prop where
  inv : SInv pb s' A' O L' P
  used : ∀ x, A'.Used x ↔ A.Used x ∨ x = d
  fresh : ¬ A.Used d
  nz : d.uptr ≠ 0
  fit : d.uptr + n ≤ d.addr + d.size
  align : 1 < b → b ∣ d.uptr
  align16 : b ≤ 1 → 16 ∣ d.uptr
  noPad : b ≤ 1 → d.st = .used none
  kind : (calcChunkSize (alignedSize b n) ≤ 1048576 ∧ d.size < cutSize (alignedSize b n) + 32) ∨
    (1048576 < calcChunkSize (alignedSize b n) ∧ d.size = blocSize (alignedSize b n) - 48)
  busy : A.Busy → A'.Busy
  chain : s'.c = { s.c with status := s'.c.status, cnt := s'.c.cnt }
  shape : A'.shape = A.shape ∨ ∃ z, A'.shape = A.shape ++ [z]
  sub : ∀ e ∈ L', e ∈ L
  osUsed : ∀ x, s.w.src.os.used x = true → s'.w.src.os.used x = true
  frame : ∀ x, Quiet pb A x → (∀ e ∈ L, x < e.1 ∨ e.1 + e.2 ≤ x) → s.w.src.os.used x = true → s'.w.mem x = s.w.mem x

/-- Found case. -/
theorem salloc_found {C : Config} {pb : Nat} {s : CS Light} {A : AHeap} {O L : List (Nat × Nat)} {P : Res} {b n k : Nat} {c : Ck}
    (I : SInv pb s A O L P) (hb : GoodBound b) (hn : n ≠ 0) (hsz : calcChunkSize (alignedSize b n) ≤ 1048576)
    (hlt : alignedSize b n + 16 < W63)
    (hk : searchClass (calcChunkSize (alignedSize b n)) k)
    (hf : A.find k (calcChunkSize (alignedSize b n)) = some c) :
    ∃ s' d A', allocAlign (lightSource C) s b n = .ok (s', d.uptr) ∧ SAlloc pb s A O L P b n d s' A' L ∧
      A'.shape = A.shape ∧ (∃ c, A.Has c ∧ c.st = .free ∧ c.addr = d.addr ∧ c.size ≤ MB2 ∧
        calcChunkSize (alignedSize b n) ≤ c.size) ∧ ∀ x, Quiet pb A x → s'.w.mem x = s.w.mem x := by
  obtain ⟨d, A', G, hne, hs⟩ := alloc_found (lightSource C) I.ch.wf hb hn hlt hk hf
  obtain ⟨h', e, M, f⟩ := hs s I.ch.inv (by unfold isHuge; simp; intro _; omega)
  have hdU : A'.Used d := (G.used d).2 (Or.inr rfl)
  have hdw := G.wf.has_wf hdU.1
  refine ⟨s.setHeap h', d, A', e, ⟨?_, G.used, G.fresh, hne, G.fit, G.align, G.align16, G.noPad, Or.inl ⟨hsz, G.tight⟩,
    ?_, rfl, Or.inl G.shape, fun _ h => h, fun _ h => h, fun x hx _ _ => f x hx⟩, G.shape,
    ⟨c, G.has, G.free, G.addr.symm, G.small, Nat.le_trans G.min G.le⟩, f⟩
  rotate_left
  · intro hB e he
    rw [G.shape] at he
    obtain ⟨k, hk, hk'⟩ := hB e he
    exact ⟨k, (G.used k).2 (Or.inl hk), hk'⟩
  refine I.update G.wf M G.shape (fun h => G.noAdj (I.ch.noAdj h)) ?_ ?_ (fun x hx => f x (I.ch.wf.outer_quiet hx))
  · intro e he
    refine (I.ch.seg e he).2.imp_right ?_
    rintro ⟨k, hk, hk'⟩
    exact ⟨k, (G.used k).2 (Or.inl hk), hk'⟩
  · intro x hx
    rcases (G.used x).1 hx with h | rfl
    · exact I.ch.room x h
    · exact room_of (G.wf.addr_dvd hdU.1) hdw.dvd hdw.ge hb hn G.fit G.ptr

theorem findFreeChunk_none {pb : Nat} {A : AHeap} {n k : Nat} (W : A.WF pb)
    (hsz : calcChunkSize n < W63) (hk : searchClass (calcChunkSize n) k)
    (hf : A.find k (calcChunkSize n) = none) {h : Heap} (M : MemOK (stdPool pb) h A) :
    findFreeChunk (stdPool pb) h n = .ok (h, 0) := by
  have key := findFreeChunk_ok W hsz hk
  rw [hf] at key
  exact key _ M

/-- Quiet bytes stay quiet if the used chunks, the blocs and the free bytes are among the former ones. -/
theorem quiet_mono {pb : Nat} {A A' : AHeap} {x : Nat} (W' : A'.WF pb)
    (hu : ∀ c, A'.Used c → c.addr ≤ x → x < c.addr + c.size → A.Used c)
    (hs : ∀ d ∈ A'.shape, d.1 ≤ x → x < d.1 + d.2 → d ∈ A.shape)
    (hf : A'.FreeAt x → A.FreeAt x) (h : Quiet pb A x) : Quiet pb A' x := by
  refine ⟨h.1, fun hx => h.2.1 (hf hx), ?_⟩
  rintro ⟨g, hg, c, hc, h1, h2⟩
  have hw := W'.seg g hg
  rcases List.mem_append.1 hc with hc' | hc'
  · have hH : A'.Has c := ⟨g, hg, hc'⟩
    have h32 := (W'.has_wf hH).ge
    rcases AHeap.has_used_or_free W' hH with hU | hF
    · obtain ⟨⟨g', hg', hc''⟩, _⟩ := hu c hU h1 (by omega)
      exact h.2.2 ⟨g', hg', c, Seg.mem_ext hc'', h1, h2⟩
    · exact h.2.1 (hf ⟨c, hH, hF, h1, by omega⟩)
  · have hc' : c = g.stop := by simpa using hc'
    have hb := hw.ext_bounds hc
    have hsz : c.size = 16 := by rw [hc']; rfl
    have := hs (g.base, g.size) (mem_shape.2 ⟨g, hg, rfl⟩) (by simp only; omega) (by simp only; omega)
    obtain ⟨g', hg', e⟩ := mem_shape.1 this
    obtain ⟨e1, e2⟩ := Prod.mk.inj e
    have : g'.stop = c := by rw [hc']; unfold Seg.stop; rw [e1, e2]
    exact h.2.2 ⟨g', hg', c, by rw [← this]; exact Seg.stop_mem_ext _, h1, h2⟩
theorem findFreeChunk_some {pb : Nat} {A : AHeap} {n k : Nat} {c : Ck} (W : A.WF pb)
    (hsz : calcChunkSize n < W63) (hk : searchClass (calcChunkSize n) k)
    (hf : A.find k (calcChunkSize n) = some c) {h : Heap} (M : MemOK (stdPool pb) h A) :
    ∃ h', findFreeChunk (stdPool pb) h n = .ok (h', c.addr) ∧ c.addr ≠ 0 := by
  have key := findFreeChunk_ok W hsz hk
  rw [hf] at key
  simp only at key
  obtain ⟨k1, k2, k3, k4⟩ := key
  obtain ⟨d, A', R, hs⟩ := takeChunk_ok W k1 k2 k3
  obtain ⟨s1, s', e1, _⟩ := hs h M
  have := W.has_range k1
  exact ⟨s1, by rw [k4 _ M, e1]; rfl, by omega⟩

/-- After a refill the locked part runs as on the refilled chain. -/
theorem allocLocked_refill {S : Source Light} {s s2 : CS Light} {n chunk : Nat} {h2 : Heap}
    (e1 : findFreeChunk s.c.pool s.heap n = .ok (s.heap, 0))
    (e2 : refillMem S s (calcChunkSize n) = .ok (s2, true))
    (e3 : findFreeChunk s2.c.pool s2.heap n = .ok (h2, chunk)) (hc : chunk ≠ 0) :
    allocLocked S s n = allocLocked S s2 n := by
  unfold allocLocked
  rw [e1, e3, Outcome.ok_bind, Outcome.ok_bind]
  simp only [CS.setHeap_heap]
  rw [if_pos trivial, if_neg hc, e2, Outcome.ok_bind]
  simp only [if_true]
  rw [e3]
  rfl

theorem allocAlign_small {S : Source Light} {pb : Nat} {s s2 : CS Light} {A A2 : AHeap} {b n : Nat}
    (I : ChainInv pb s A) (I2 : ChainInv pb s2 A2) (hn : n ≠ 0) (hlt : alignedSize b n + 16 < W63)
    (hts : s2.c.threadSafe = s.c.threadSafe)
    (hh : isHuge s.c (alignedSize b n) = false) (hh2 : isHuge s2.c (alignedSize b n) = false)
    (e : allocLocked S (s.lk s.c.threadSafe) (alignedSize b n) =
      allocLocked S (s2.lk s.c.threadSafe) (alignedSize b n)) : allocAlign S s b n = allocAlign S s2 b n := by
  have hN : (if b > 1 then add64 n b else n) = alignedSize b n := by
    unfold alignedSize at hlt ⊢
    split
    · rw [if_pos (by omega)] at hlt
      exact add64_eq (by omega)
    · rfl
  unfold allocAlign
  rw [if_neg (show ¬ s.c.dead = true by simp [I.dead]), if_neg (show ¬ s2.c.dead = true by simp [I2.dead]),
    if_neg hn, if_neg hn]
  simp only
  rw [hN, hh, hh2, if_neg (by simp), if_neg (by simp), lockIf_ok I.dead I.lock, lockIf_ok I2.dead I2.lock,
    Outcome.ok_bind, Outcome.ok_bind, hts]
  unfold CS.lk at e
  rw [e]

/-- What a small allocation does when the chain has no chunk for it. -/
theorem salloc_refill {C : Config} {pb : Nat} {s : CS Light} {A : AHeap} {O L : List (Nat × Nat)} {P : Res} {b n k : Nat}
    (I : SInv pb s A O L P) (hb : GoodBound b) (hn : n ≠ 0) (hsz : calcChunkSize (alignedSize b n) ≤ 1048576)
    (hlt : alignedSize b n + 16 < W63)
    (hk : searchClass (calcChunkSize (alignedSize b n)) k)
    (hf : A.find k (calcChunkSize (alignedSize b n)) = none) :
    (Refused C s L (calcChunkSize (alignedSize b n)) ∧ allocAlign (lightSource C) s b n = .ub) ∨
    ∃ s' d A' L', allocAlign (lightSource C) s b n = .ok (s', d.uptr) ∧ SAlloc pb s A O L P b n d s' A' L' := by
  have hge := calc_ge (alignedSize b n)
  generalize hN : alignedSize b n = N at *
  have hfind : findFreeChunk (s.lk s.c.threadSafe).c.pool (s.lk s.c.threadSafe).heap N =
      .ok ((s.lk s.c.threadSafe).heap, 0) := by
    have h1 : (s.lk s.c.threadSafe).c.pool = stdPool pb := I.ch.pool
    rw [h1]
    exact findFreeChunk_none I.ch.wf (by omega) hk hf I.ch.mem
  have hhuge : isHuge s.c N = false := by unfold isHuge; simp; intro _; omega
  rcases requestMem_ok (C := C) I s.c.threadSafe (n := calcChunkSize N) (by omega) with ⟨hr, e⟩ | ⟨s1, a, L1, e, B⟩
  · left
    refine ⟨hr, ?_⟩
    have hN' : (if b > 1 then add64 n b else n) = N := by
      unfold alignedSize at hN
      split
      · rw [if_pos (by omega)] at hN
        rw [add64_eq (by omega)]; exact hN
      · rw [if_neg (by omega)] at hN; exact hN
    unfold allocAlign
    rw [if_neg (by simp [I.ch.dead]), if_neg hn]
    simp only
    rw [hN', hhuge, if_neg (by simp), lockIf_ok I.ch.dead I.ch.lock, Outcome.ok_bind]
    have : allocLocked (lightSource C) (s.lk s.c.threadSafe) N = .ub := by
      unfold allocLocked
      rw [hfind, Outcome.ok_bind]
      simp only [CS.setHeap_heap]
      rw [if_pos trivial]
      have : refillMem (lightSource C) (s.lk s.c.threadSafe) (calcChunkSize N) = .ub := by
        unfold refillMem; rw [e]; rfl
      rw [this]; rfl
    unfold CS.lk at this
    rw [this]; rfl
  · right
    have hbs : blocSize (calcChunkSize N) = MB2 := by unfold blocSize; omega
    rw [hbs] at B
    have F := B.fresh
    obtain ⟨A2, R, hs⟩ := addFree_ok I.ch.wf F true
    obtain ⟨h2, e2, M2, f2⟩ := hs s1.heap B.inv.ch.mem
    have hshape : A2.shape = ((addCtx A a MB2).fill [addCk a MB2] A.fl).shape := by rw [R.shape, addCtx_shape]
    have I2 : SInv pb (s1.setHeap h2) A2 O L1 P := by
      refine B.inv.update R.wf M2 hshape ?_ ?_ ?_ ?_
      · intro h
        exact R.noAdj (I.ch.noAdj (by rw [B.chain] at h; exact h))
      · rw [addCtx_shape]
        intro d hd
        rcases List.mem_append.1 hd with hd | hd
        · refine (I.ch.seg d hd).2.imp_right ?_
          rintro ⟨k, hk, hk'⟩
          exact ⟨k, (R.used k).2 hk, hk'⟩
        · have : d = (a, MB2) := by simpa using hd
          subst this
          exact Or.inl rfl
      · intro k hk
        exact I.ch.room k ((R.used k).1 hk)
      · intro x hx
        have hq := B.inv.ch.wf.outer_quiet hx
        have hnf : ¬ A.FreeAt x := by
          rintro ⟨c, hc, h1, h2, h3⟩
          refine hq.2.1 ⟨c, ?_, h1, h2, h3⟩
          obtain ⟨g, hg, hcg⟩ := hc
          refine ((addCtx A a MB2).has _ _ c).2 (Or.inr (Or.inr (Or.inr ⟨g, Or.inl hg, hcg⟩)))
        refine f2 x hx.1 hnf ?_
        by_contra hin
        rcases hx.2 with h | ⟨g, hg, h1, h2⟩
        · refine h ⟨_, Ctx.seg_mem _ _ _, ?_, ?_⟩ <;> simp only [Ctx.seg, addCtx] <;> omega
        · have hw := B.inv.ch.wf.seg g hg
          have hge := hw.ge
          rcases List.mem_append.1 hg with hg' | hg'
          · have := F.disj g hg'; omega
          · have : g = (addCtx A a MB2).seg [addCk a MB2] := by simpa [addCtx] using hg'
            subst this
            simp only [Ctx.seg, addCtx] at h1 h2
            omega
    have hh2 : isHuge (s1.setHeap h2).c N = false := by unfold isHuge; simp; intro _; omega
    have hsrc1 : s1.c.pool = stdPool pb := B.inv.ch.pool
    have hts : (s1.setHeap h2).c.threadSafe = s.c.threadSafe := by rw [CS.setHeap, B.chain]
    cases hf2 : A2.find k (calcChunkSize N) with
    | none =>
      exfalso
      have h1 := hk.2.resolve_right (fun h => by omega)
      have := R.wf.find_complete h1 hf2 R.has rfl (by simp only; omega)
      simp only at this
      omega
    | some c =>
      subst hN
      obtain ⟨s', d, A', e3, G, hsh3, ⟨c', c1, c2, c3, c4, c5⟩, f3⟩ := salloc_found (C := C) I2 hb hn hsz hlt hk hf2
      obtain ⟨h3, e4, hne⟩ := findFreeChunk_some I2.ch.wf (by omega) hk hf2 I2.ch.mem
      have eA : allocAlign (lightSource C) s b n = allocAlign (lightSource C) (s1.setHeap h2) b n := by
        refine allocAlign_small I.ch.inv I2.ch.inv hn hlt hts hhuge hh2 ?_
        refine allocLocked_refill hfind ?_ (h2 := h3) ?_ hne
        · unfold refillMem
          rw [e, Outcome.ok_bind]
          simp only
          rw [if_neg (by omega)]
          have : freeListInsert (s1.lk s.c.threadSafe).c.pool (s1.lk s.c.threadSafe).heap (vLarge (a + 47)) true = .ok h2 := by
            have h : (s1.lk s.c.threadSafe).c.pool = stdPool pb := hsrc1
            rw [h]; exact e2
          rw [this]
          rfl
        · have h : ((s1.setHeap h2).lk s.c.threadSafe).c.pool = stdPool pb := hsrc1
          rw [h]; exact e4
      refine ⟨s', d, A', L1, eA.trans e3, ⟨G.inv, ?_, ?_, G.nz, G.fit, G.align, G.align16, G.noPad, G.kind, ?_, ?_, ?_,
        ?_, ?_, ?_⟩⟩
      · intro x; rw [G.used, R.used]
      · intro h; exact G.fresh ((R.used d).2 h)
      · intro hB e he
        rw [hsh3, R.shape] at he
        rcases List.mem_append.1 he with he | he
        · obtain ⟨k, hk, hk'⟩ := hB e he
          exact ⟨k, (G.used k).2 (Or.inl ((R.used k).2 hk)), hk'⟩
        · have he : e = (a, MB2) := by simpa using he
          subst he
          refine ⟨d, (G.used d).2 (Or.inr rfl), ?_⟩
          rcases R.all c' c1 with h | h
          · have := I.ch.wf.find_complete (hk.2.resolve_right (fun h => by omega)) hf h c2 c4
            omega
          · rw [← c3, h]; simp only; omega
      · rw [G.chain, CS.setHeap, B.chain]
      · exact Or.inr ⟨(a, MB2), by rw [hsh3, R.shape]⟩
      · exact fun x hx => B.sub x hx
      · exact fun x hx => G.osUsed x (B.used x hx)
      · intro x hx1 hx2 hx3
        have hout : x < a ∨ a + MB2 ≤ x := by
          rcases B.bloc with h | h
          · exact hx2 _ h
          · by_contra hc
            have := h x (by omega) (by omega)
            rw [hx3] at this; cases this
        have hq2 : Quiet pb A2 x := by
          refine quiet_mono R.wf (fun c hc _ _ => (R.used c).1 hc) ?_ ?_ hx1
          · rw [R.shape]
            intro d hd h1 h2
            rcases List.mem_append.1 hd with hd | hd
            · exact hd
            · have : d = (a, MB2) := by simpa using hd
              subst this
              simp only at h1 h2
              omega
          · intro h
            rcases R.free x h with h | h
            · exact h
            · omega
        rw [f3 x hq2]
        have h1 := f2 x hx1.1 hx1.2.1 (by omega)
        have h2 := B.frame x hx2 hout
        exact h1.trans h2
theorem PadRel.off {pb : Nat} {A A' : AHeap} {d d' : Ck} {b n : Nat} (R : PadRel pb A d b n d' A') (hb : b ≤ 1) :
    16 ∣ d'.uptr := by
  have h1 := R.noPad hb
  have h2 := R.wf.addr_dvd R.usedD.1
  unfold Ck.uptr Ck.off
  rw [h1]
  simp only
  omega

/-- Huge allocation. -/
theorem salloc_huge {C : Config} {pb : Nat} {s : CS Light} {A : AHeap} {O L : List (Nat × Nat)} {P : Res} {b n : Nat}
    (I : SInv pb s A O L P) (hb : GoodBound b) (hn : n ≠ 0) (hsz : 1048576 < calcChunkSize (alignedSize b n))
    (hlt : alignedSize b n + 48 + MB2 ≤ W64) (hfit : alignedSize b n + 64 ≤ blocSize (alignedSize b n)) :
    (Refused C s L (alignedSize b n) ∧ allocAlign (lightSource C) s b n = .ub) ∨
    ∃ s' d A' L', allocAlign (lightSource C) s b n = .ok (s', d.uptr) ∧ SAlloc pb s A O L P b n d s' A' L' := by
  have hN : (if b > 1 then add64 n b else n) = alignedSize b n := by
    unfold alignedSize at hlt ⊢
    split
    · rw [if_pos (by omega)] at hlt
      exact add64_eq (by omega)
    · rfl
  have hhuge : isHuge s.c (alignedSize b n) = true := by unfold isHuge; simp [I.ch.src, hsz]
  have eA : allocAlign (lightSource C) s b n = (do
      let (s, v) ← requestMem (lightSource C) (s.lk s.c.lock) (alignedSize b n)
      return padAndReturn s v b) := by
    unfold allocAlign
    rw [if_neg (by simp [I.ch.dead]), if_neg hn]
    simp only
    rw [hN, hhuge, if_pos rfl]
    rfl
  rw [eA]
  obtain ⟨z1, z2, z3, z4⟩ := blocSize_facts (alignedSize b n)
  rcases requestMem_ok (C := C) I s.c.lock hlt with ⟨hr, e⟩ | ⟨s1, a, L1, e, B⟩
  · left
    refine ⟨hr, ?_⟩
    rw [e]; rfl
  · right
    rw [e, Outcome.ok_bind]
    simp only
    have hlk : s1.lk s.c.lock = s1 := by
      have : s1.c.lock = s.c.lock := by rw [B.chain]
      unfold CS.lk; rw [← this]
    rw [hlk]
    generalize hsz' : blocSize (alignedSize b n) = sz at *
    have F := B.fresh
    have hdU : ((addCtx A a sz).fill [addCk a sz] A.fl).Used (addCk a sz) := (addCtx_used _).2 (Or.inr rfl)
    obtain ⟨d', A', R, hne, hs⟩ := padReturn_ok (σ := Light) (n := n) B.inv.ch.wf hdU rfl hb
      (by
        have hal : alignedSize b n = n + (if 1 < b then b else 0) := by unfold alignedSize; split <;> omega
        rw [hal] at hfit
        unfold addCk; simp only; omega)
    obtain ⟨m, e2, M2, f2⟩ := hs s1 B.inv.ch.mem
    have e2' : padAndReturn s1 (a + 47) b = (s1.setMem m, d'.uptr) := e2
    rw [e2']
    have haddr : d'.addr = a + 32 := R.addr
    have hsize : d'.size = sz - 48 := R.size
    have hnotA : ∀ c : Ck, A.Used c → c.addr ≠ a + 32 := by
      intro c hc h
      obtain ⟨g, hg, hcg⟩ := hc.1
      have h1 := (I.ch.wf.seg g hg).bounds hcg
      have h2 := F.disj g hg
      have h3 := (I.ch.wf.has_wf hc.1).ge
      omega
    have hdA : ¬ A.Used d' := fun h => hnotA d' h haddr
    have hused : ∀ x, A'.Used x ↔ A.Used x ∨ x = d' := by
      intro x
      rw [R.used, addCtx_used]
      constructor
      · rintro (⟨h1 | h1, h2⟩ | h1)
        · exact Or.inl h1
        · exact absurd h1 h2
        · exact Or.inr h1
      · rintro (h1 | h1)
        · exact Or.inl ⟨Or.inl h1, fun h => hnotA x h1 (by rw [h]; rfl)⟩
        · exact Or.inr h1
    have hshape : A'.shape = A.shape ++ [(a, sz)] := by rw [R.shape, addCtx_shape]
    have hdw := R.wf.has_wf R.usedD.1
    refine ⟨s1.setMem m, d', A', L1, rfl, ⟨?_, hused, hdA, hne, R.fit, R.align, R.off, R.noPad,
      Or.inr ⟨hsz, hsize.trans (by rw [hsz'])⟩, ?_, ?_, Or.inr ⟨_, hshape⟩, B.sub, B.used, ?_⟩⟩
    · refine B.inv.update (h := ⟨m, s1.c.status⟩) R.wf M2 R.shape ?_ ?_ ?_ ?_
      · intro h; exact R.noAdj (B.inv.ch.noAdj h)
      · rw [addCtx_shape]
        intro d hd
        rcases List.mem_append.1 hd with hd | hd
        · refine (I.ch.seg d hd).2.imp_right ?_
          rintro ⟨k, hk, hk'⟩
          exact ⟨k, (hused k).2 (Or.inl hk), hk'⟩
        · have : d = (a, sz) := by simpa using hd
          subst this
          exact Or.inr ⟨d', R.usedD, haddr, hsize⟩
      · intro k hk
        rcases (hused k).1 hk with h | rfl
        · exact I.ch.room k h
        · refine room_of (R.wf.addr_dvd R.usedD.1) hdw.dvd hdw.ge hb hn R.fit ?_
          have := R.ptr
          rw [← R.addr] at this
          exact this
      · intro x hx
        refine f2 x ?_
        by_contra hc
        have hq := B.inv.ch.wf.outer_quiet hx
        simp only [addCk] at hc
        rcases hx.2 with h | ⟨g, hg, h1, h2⟩
        · refine h ⟨_, Ctx.seg_mem _ _ _, ?_, ?_⟩ <;> simp only [Ctx.seg, addCtx] <;> omega
        · have hge := (B.inv.ch.wf.seg g hg).ge
          rcases List.mem_append.1 hg with hg' | hg'
          · have := F.disj g hg'; omega
          · have : g = (addCtx A a sz).seg [addCk a sz] := by simpa [addCtx] using hg'
            subst this
            simp only [Ctx.seg, addCtx] at h1 h2
            omega
    · intro hB e he
      rw [hshape] at he
      rcases List.mem_append.1 he with he | he
      · obtain ⟨k, hk, hk'⟩ := hB e he
        exact ⟨k, (hused k).2 (Or.inl hk), hk'⟩
      · have he : e = (a, sz) := by simpa using he
        subst he
        exact ⟨d', R.usedD, by simp only; omega, by simp only; omega⟩
    · show s1.c = _
      rw [B.chain]
      simp [CS.setMem, B.chain]
    · intro x hx1 hx2 hx3
      have hout : x < a ∨ a + sz ≤ x := by
        rcases B.bloc with h | h
        · exact hx2 _ h
        · by_contra hc
          have := h x (by omega) (by omega)
          rw [hx3] at this; cases this
      have h1 := f2 x (by simp only [addCk]; omega)
      exact h1.trans (B.frame x hx2 hout)

/-- Allocation on a chain fed by the light source. -/
theorem salloc_ok {C : Config} {pb : Nat} {s : CS Light} {A : AHeap} {O L : List (Nat × Nat)} {P : Res} {b n : Nat}
    (I : SInv pb s A O L P) (hb : GoodBound b) (hn : n ≠ 0) 
    (hlt : alignedSize b n + 48 + MB2 ≤ W64) (hfit : Fits (alignedSize b n)) :
    ((∃ k, k ≤ alignedSize b n + 32 ∧ Refused C s L k) ∧ allocAlign (lightSource C) s b n = .ub) ∨
    ∃ s' d A' L', allocAlign (lightSource C) s b n = .ok (s', d.uptr) ∧ SAlloc pb s A O L P b n d s' A' L' := by
  have hcalc := calc_eq (n := alignedSize b n) (by omega)
  by_cases hsz : calcChunkSize (alignedSize b n) ≤ 1048576
  · obtain ⟨k, hk⟩ := searchClass_exists (calc_ge (alignedSize b n)) (by omega)
    cases hf : A.find k (calcChunkSize (alignedSize b n)) with
    | none =>
      rcases salloc_refill (C := C) I hb hn hsz (by omega) hk hf with ⟨h1, h2⟩ | h
      · exact Or.inl ⟨⟨_, by omega, h1⟩, h2⟩
      · exact Or.inr h
    | some c =>
      obtain ⟨s', d, A', h1, h2, _⟩ := salloc_found (C := C) I hb hn hsz (by omega) hk hf
      exact Or.inr ⟨s', d, A', L, h1, h2⟩
  · rcases salloc_huge (C := C) I hb hn (by omega) hlt (hfit.resolve_left hsz) with ⟨h1, h2⟩ | h
    · exact Or.inl ⟨⟨_, by omega, h1⟩, h2⟩
    · exact Or.inr h

/-! ### Free -/

/-- Mappings may have been removed. -/
def Os.Le (o' o : Os) : Prop := o'.ans = o.ans ∧ o'.k = o.k ∧ ∀ x, o'.used x = true → o.used x = true

theorem Os.Le.refl (o : Os) : o.Le o := ⟨rfl, rfl, fun _ h => h⟩

theorem Os.Le.trans {o1 o2 o3 : Os} (h1 : o1.Le o2) (h2 : o2.Le o3) : o1.Le o3 :=
  ⟨h1.1.trans h2.1, h1.2.1.trans h2.2.1, fun x h => h2.2.2 x (h1.2.2 x h)⟩

theorem munmap_le (o : Os) (a n : Nat) : (munmap o a n).Le o := by
  unfold munmap
  split
  · refine ⟨rfl, rfl, fun x hx => ?_⟩
    simp only at hx
    split at hx
    · simp at hx
    · exact hx
  · exact .refl o

theorem fill_shape (K : Ctx) (l : List Ck) (fl : Nat → List Ck) :
    (K.fill l fl).shape = K.S1.map (fun s => (s.base, s.size)) ++ (K.base, K.size) :: K.S2.map (fun s => (s.base, s.size)) := by
  simp [AHeap.shape, Ctx.fill, Ctx.seg]

theorem delSeg_shape (K : Ctx) (fl : Nat → List Ck) :
    (delSeg K fl).shape = K.S1.map (fun s => (s.base, s.size)) ++ K.S2.map (fun s => (s.base, s.size)) := by
  simp [AHeap.shape, delSeg]

theorem delSeg_used {K : Ctx} {fl : Nat → List Ck} (hp : K.p = []) (hq : K.q = []) (x : Ck)
    (hx : ∃ p, x.st = .used p) : (delSeg K fl).Used x ↔ K.Rest x := by
  unfold AHeap.Used AHeap.Has Ctx.Rest delSeg
  rw [hp, hq]
  simp only [List.mem_append, List.not_mem_nil, false_or]
  exact ⟨fun h => h.1, fun h => ⟨h, hx⟩⟩

theorem delSeg_segs {K : Ctx} {l : List Ck} {fl fl' : Nat → List Ck} {g : Seg} (h : g ∈ (delSeg K fl).segs) :
    g ∈ (K.fill l fl').segs := by
  rcases List.mem_append.1 h with h | h
  · exact List.mem_append_left _ h
  · exact List.mem_append_right _ (List.mem_cons_of_mem _ h)

theorem delSeg_sub {K : Ctx} {l : List Ck} {fl fl' : Nat → List Ck} {d : Nat × Nat} (h : d ∈ (delSeg K fl).shape) :
    d ∈ (K.fill l fl').shape := by
  obtain ⟨g, hg, e⟩ := mem_shape.1 h
  exact mem_shape.2 ⟨g, delSeg_segs hg, e⟩

theorem mem_filter_apart {X Y : List (Nat × Nat)} {b sz : Nat} (h : ∀ d ∈ X ++ Y, d.1 ≠ b) (d : Nat × Nat) :
    d ∈ X ++ Y ↔ d ∈ (X ++ (b, sz) :: Y).filter (fun d => d.1 ≠ b) := by
  rw [List.mem_filter]
  constructor
  · intro hd
    refine ⟨?_, by simpa using h d hd⟩
    rcases List.mem_append.1 hd with hd | hd
    · exact List.mem_append_left _ hd
    · exact List.mem_append_right _ (List.mem_cons_of_mem _ hd)
  · rintro ⟨h1, h2⟩
    rcases List.mem_append.1 h1 with h1 | h1
    · exact List.mem_append_left _ h1
    · rcases List.mem_cons.1 h1 with rfl | h1
      · simp at h2
      · exact List.mem_append_right _ h1

/-- What the release of a bloc does. -/
structure DelBloc (pb : Nat) (s : CS Light) (K : Ctx) (fl : Nat → List Ck) (O L : List (Nat × Nat)) (P : Res)
    (s' : CS Light) (L' : List (Nat × Nat)) : Prop where
  inv : SInv pb s' (delSeg K fl) O L' P
  chain : s'.c = { s.c with cnt := s.c.cnt - 1 }
  sub : L' = L ∨ L' = (K.base, K.size) :: L
  used : ∀ x, s.w.src.os.used x = true → (x < K.base ∨ K.base + K.size ≤ x) → s'.w.src.os.used x = true
  osLe : s'.w.src.os.Le s.w.src.os
  frame : ∀ x, (x < K.base ∨ K.base + K.size ≤ x) → s'.w.mem x = s.w.mem x

/-- The chunk of the hole covers its bloc. -/
theorem whole_bloc {pb : Nat} {K : Ctx} {m : Ck} {fl : Nat → List Ck} (W : (K.fill [m] fl).WF pb) (hp : K.p = [])
    (hq : K.q = []) : m.addr = K.base + 32 ∧ m.size = K.size - 48 ∧ 96 ≤ K.size := by
  have hw := W.seg _ (K.seg_mem [m] fl)
  have ht := hw.tiles
  have hge := hw.ge
  simp only [Ctx.seg, hp, hq, List.nil_append, List.append_nil, Tiles] at ht hge
  omega

theorem smacro {C : Config} {pb : Nat} {s : CS Light} {K : Ctx} {m : Ck} {fl : Nat → List Ck} {O L : List (Nat × Nat)} {P : Res}
    (I : SInv pb s (K.fill [m] fl) O L P) (l : Bool) (hm : ∃ p, m.st = .used p) (hp : K.p = []) (hq : K.q = []) :
    ∃ s' L', freeMacroBloc (lightSource C) (s.lk l) (m.addr + 15) = .ok (s'.lk l) ∧ DelBloc pb s K fl O L P s' L' := by
  have W := I.ch.wf
  obtain ⟨w1, w2, w3⟩ := whole_bloc W hp hq
  have hmH : (K.fill [m] fl).Has m := K.has_of_mem fl (by simp)
  have hmf : m.st ≠ .free := by obtain ⟨p, h⟩ := hm; rw [h]; simp
  obtain ⟨z, hmem⟩ := I.ch.mem.hdr hmH
  have hh := hmem.hdr
  rw [Ck.hdrSize_eq (W.has_wf hmH).nstop] at hh
  have hr := W.has_range hmH
  have hin : (K.base, K.size) ∈ (K.fill [m] fl).shape := by rw [fill_shape]; simp
  have hmul := (I.ch.seg _ hin).1
  have hgood := I.lin.good (K.base, K.size) (List.mem_append_left _ (List.mem_append_left _ hin))
  have g1 := hgood.pos
  have g2 := hgood.high
  simp only at hmul g1 g2
  have hmod : ¬ m.size % MB2 ≠ MB2 - 48 := by omega
  obtain ⟨R', eR, IR⟩ := I.reg.unreg (List.mem_append_left _ (List.mem_append_left O hin))
  have hO : (K.fill [m] fl).shape ++ O = K.S1.map (fun s => (s.base, s.size)) ++ (K.base, K.size) ::
      (K.S2.map (fun s => (s.base, s.size)) ++ O) := by rw [fill_shape]; simp
  have IL := I.lin
  rw [hO] at IL
  obtain ⟨m1, src1, eF, hF, f1⟩ := lightFree_ok (C := C) IL
  have hshape' : (delSeg K fl).shape ++ O = K.S1.map (fun s => (s.base, s.size)) ++
      (K.S2.map (fun s => (s.base, s.size)) ++ O) := by rw [delSeg_shape]; simp
  -- other blocs are apart
  have hap := I.lin.apart
  rw [hO, List.append_assoc] at hap
  have hap2 := perm_apart (O := []) (A := K.S1.map (fun s => (s.base, s.size))) (d := (K.base, K.size))
    (B := (K.S2.map (fun s => (s.base, s.size)) ++ O) ++ L) (by simpa using hap)
  have hap3 : ∀ d ∈ ((delSeg K fl).shape ++ O) ++ L, Apart (K.base, K.size) d := by
    intro d hd
    have := List.pairwise_cons.1 hap2
    refine this.1 d ?_
    rw [hshape'] at hd
    simpa using hd
  have hapE : ∀ d ∈ P.env.blocs, Apart (K.base, K.size) d := fun d hd => I.extApart (by omega)
    (fun e he x h1 h2 => I.resD e he (K.base, K.size) (List.mem_append_left _ (List.mem_append_left _ hin)) x h1 h2) hd
  have hsub : ∀ d ∈ ((delSeg K fl).shape ++ O) ++ L, d ∈ ((K.fill [m] fl).shape ++ O) ++ L := by
    intro d hd
    rcases List.mem_append.1 hd with hd | hd
    · rcases List.mem_append.1 hd with hd | hd
      · exact List.mem_append_left _ (List.mem_append_left _ (delSeg_sub hd))
      · exact List.mem_append_left _ (List.mem_append_right _ hd)
    · exact List.mem_append_right _ hd
  have hbig : ∀ d ∈ ((delSeg K fl).shape ++ O) ++ L, 4096 ≤ d.2 := by
    intro d hd
    have hd' : d ∈ ((K.fill [m] fl).shape ++ O) ++ L := hsub d hd
    have k1 := (I.lin.good d hd').pos
    have k2 := (I.lin.good d hd').mul
    omega
  have hsegs : ∀ g ∈ (delSeg K fl).segs, g ∈ (K.fill [m] fl).segs := fun g hg => delSeg_segs hg
  have hm1 : ∀ d ∈ ((delSeg K fl).shape ++ O) ++ L, ∀ x, d.1 ≤ x → x < d.1 + d.2 → m1 x = s.w.mem x := by
    intro d hd x h1 h2
    have h3 := hap3 d hd
    unfold Apart at h3
    simp only at h3
    exact f1 x (by omega)
  -- the state reached
  let s' : CS Light := { w := { s.w with mem := m1, src := src1, regs := R' }, c := { s.c with cnt := s.c.cnt - 1 } }
  have hL : ∃ L', (L' = L ∨ L' = (K.base, K.size) :: L) ∧ LInv m1 src1 ((delSeg K fl).shape ++ O) L' ∧
      ∀ x, s.w.src.os.used x = true → (x < K.base ∨ K.base + K.size ≤ x) → src1.os.used x = true := by
    rcases hF with ⟨_, _, h1, h2⟩ | ⟨_, h1, h2⟩
    · refine ⟨_, Or.inr rfl, by rw [hshape']; exact h1, fun x hx _ => by rw [h2]; exact hx⟩
    · refine ⟨_, Or.inl rfl, by rw [hshape']; exact h1, fun x hx hx2 => ?_⟩
      rw [h2]; unfold munmap
      have hk : pageUp K.size = K.size := pageUp_eq hgood.mul
      split
      · simp only; rw [hk, if_neg (by omega)]; exact hx
      · exact hx
  have hLe : src1.os.Le s.w.src.os := by
    rcases hF with ⟨_, _, _, h2⟩ | ⟨_, _, h2⟩
    · rw [h2]; exact .refl _
    · rw [h2]; exact munmap_le _ _ _
  obtain ⟨L', hL1, hL2, hL3⟩ := hL
  refine ⟨s', L', ?_, ⟨⟨⟨wf_delSeg W hmf hp hq, I.ch.pool, ?_, I.ch.dead, I.ch.lock, I.ch.base, I.ch.src, I.ch.handler,
    I.ch.region, ?_, ?_, ?_, ?_, ?_⟩, hL2, ?_, I.pool, ?_, ?_, I.ext⟩, rfl, hL1, hL3, hLe, f1⟩⟩
  · unfold freeMacroBloc
    have e1 : getSize (s.lk l).w.mem (m.addr + 15) = m.size := getSize_large hh (by omega)
    have e2 : getPtr (s.lk l).w.mem (m.addr + 15) = .ok m.addr := getPtr_large hh (by omega)
    rw [e1, if_neg hmod, e2, Outcome.ok_bind]
    simp only
    have e3 : sub64 m.addr 32 = K.base := by rw [sub64_eq (by omega) (by omega)]; omega
    have e4 : (s.lk l).c.noRegion = false := I.ch.region
    have e5 : regionUnsetEntry (s.lk l).w.mem (s.lk l).w.regs K.base = .ok R' := eR
    have e6 : (lightSource C).free (s.lk l).w.mem (s.lk l).w.src K.base = .ok (m1, src1) := eF
    rw [e3, if_neg (show ¬ (s.lk l).c.noRegion = true by simp [e4]), e5, Outcome.ok_bind, e6, Outcome.ok_bind]
    simp only
    rw [if_neg (by have := I.ch.handler.1; simp [CS.lk, this])]
    rfl
  · refine MemOK.congr (h := ⟨s.w.mem, s.c.status⟩) (wf_delSeg W hmf hp hq) (delSeg_mem I.ch.mem) ?_
    intro x hx
    refine f1 x ?_
    rcases hx with ⟨h1, h2⟩ | ⟨⟨g, hg, h1, h2⟩, _⟩
    · have := W.pool _ (K.seg_mem [m] fl)
      simp only [Ctx.seg] at this
      omega
    · have := hap3 (g.base, g.size) (List.mem_append_left _ (List.mem_append_left _ (mem_shape.2 ⟨g, hg, rfl⟩)))
      unfold Apart at this
      simp only at this
      omega
  · have := I.ch.cnt
    simp only [s', this, delSeg, Ctx.fill, List.length_append, List.length_cons]
    omega
  · intro d hd
    have hd' : d ∈ (K.fill [m] fl).shape := delSeg_sub hd
    refine ⟨(I.ch.seg d hd').1, (I.ch.seg d hd').2.imp_right ?_⟩
    rintro ⟨k, hk, hk1, hk2⟩
    refine ⟨k, ?_, hk1, hk2⟩
    rw [delSeg_used hp hq k hk.2]
    rw [K.used] at hk
    rcases hk.1 with h | h
    · have : k = m := by simpa using h
      subst this
      have h3 := hap3 d (List.mem_append_left _ (List.mem_append_left _ hd))
      have h4 := hbig d (List.mem_append_left _ (List.mem_append_left _ hd))
      unfold Apart at h3
      simp only at h3
      omega
    · exact h
  · intro d hd
    have hd' : d ∈ (K.fill [m] fl).shape := delSeg_sub hd
    have hd2 : d ∈ ((delSeg K fl).shape ++ O) ++ L := List.mem_append_left _ (List.mem_append_left _ hd)
    have h4 := hbig d hd2
    refine Eq.trans (readLE_congr (fun x h1 h2 => ?_)) (I.ch.own d hd')
    exact hm1 d hd2 x (by omega) (by omega)
  · intro h g hg
    exact I.ch.noAdj h g (hsegs g hg)
  · intro k hk
    refine I.ch.room k ⟨?_, hk.2⟩
    obtain ⟨g, hg, hk⟩ := hk.1
    exact ⟨g, hsegs g hg, hk⟩
  · refine RegInv.congrMem (m := s.w.mem) ?_ ?_
    · refine IR.congrSet (fun d => ?_)
      rw [hO, hshape']
      simp only [List.append_assoc, List.cons_append]
      refine mem_filter_apart ?_ d
      intro d hd
      have hd : d ∈ ((delSeg K fl).shape ++ O) ++ P.env.blocs := by
        rw [hshape']; simpa only [List.append_assoc] using hd
      rcases List.mem_append.1 hd with hd | hd
      · have h5 : d ∈ ((delSeg K fl).shape ++ O) ++ L := List.mem_append_left _ hd
        have h3 := hap3 d h5
        have h4 := hbig d h5
        unfold Apart at h3
        simp only at h3
        omega
      · have h3 := hapE d hd
        have h4 := (I.reg.bloc d (List.mem_append_right _ hd)).2.1
        unfold Apart at h3
        simp only at h3
        omega
    · intro d hd
      rcases List.mem_append.1 hd with hd | hd
      swap
      · have h3 := hapE d hd
        have h4 := I.reg.bloc d (List.mem_append_right _ hd)
        unfold Apart at h3
        simp only at h3
        exact readLE_congr (fun x h1 h2 => f1 x (by omega))
      have hd2 : d ∈ ((delSeg K fl).shape ++ O) ++ L := List.mem_append_left _ hd
      have h4 := hbig d hd2
      exact readLE_congr (fun x h1 h2 => hm1 d hd2 x (by omega) (by omega))
  · intro d hd x h1 h2
    refine hL3 x (I.resU d hd x h1 h2) ?_
    exact I.resD d hd (K.base, K.size) (List.mem_append_left _ (List.mem_append_left _ hin)) x h1 h2
  · intro d hd e he x h1 h2
    refine I.resD d hd e ?_ x h1 h2
    rcases List.mem_append.1 he with he | he
    · exact hsub e (List.mem_append_left _ he)
    · rcases hL1 with rfl | rfl
      · exact List.mem_append_right _ he
      · rcases List.mem_cons.1 he with rfl | he
        · exact List.mem_append_left _ (List.mem_append_left _ hin)
        · exact List.mem_append_right _ he
/-- A chunk whose size is that of a bloc covers its bloc. -/
theorem whole_of {pb : Nat} {K : Ctx} {m : Ck} {fl : Nat → List Ck} (W : (K.fill [m] fl).WF pb)
    (hseg : ∀ d ∈ (K.fill [m] fl).shape, d.2 % MB2 = 0 ∧
      (d.2 = MB2 ∨ ∃ k, (K.fill [m] fl).Used k ∧ k.addr = d.1 + 32 ∧ k.size = d.2 - 48))
    (hsz : m.size % MB2 = MB2 - 48) : K.p = [] ∧ K.q = [] := by
  have hw := W.seg _ (K.seg_mem [m] fl)
  have hmH : (K.fill [m] fl).Has m := K.has_of_mem fl (by simp)
  have hm32 := (W.has_wf hmH).ge
  have ht := hw.tiles
  have hge := hw.ge
  have hb := hw.bounds (c := m) (by simp [Ctx.seg])
  simp only [Ctx.seg] at ht hge hb
  have hfull : m.addr = K.base + 32 ∧ m.addr + m.size = K.base + K.size - 16 := by
    have hin : (K.base, K.size) ∈ (K.fill [m] fl).shape := by rw [fill_shape]; simp
    obtain ⟨h1, h2⟩ := hseg _ hin
    simp only at h1 h2
    rcases h2 with h2 | ⟨k, hk, hk1, hk2⟩
    · constructor <;> omega
    · by_cases he : m = k
      · subst he; constructor <;> omega
      · have := W.has_disj hmH hk.1 he
        omega
  rw [List.append_assoc] at ht
  obtain ⟨t1, t2⟩ := tiles_mid ht
  constructor
  · cases hp : K.p with
    | nil => rfl
    | cons c l =>
      have h1 := tiles_mem t1 (c := c) (by rw [hp]; simp)
      have h2 := (hw.chunks c (by simp [Ctx.seg, hp])).ge
      omega
  · cases hq : K.q with
    | nil => rfl
    | cons c l =>
      have h1 := tiles_mem t2 (c := c) (by rw [hq]; simp)
      have h2 := (hw.chunks c (by simp [Ctx.seg, hq])).ge
      omega

/-- Chunks that a free keeps (see finding 5 of DESIGN.md): from 1 MB, but not covering a bloc. -/
def Leak (c : Ck) : Prop := 1048560 < c.size ∧ c.size % MB2 ≠ MB2 - 48

/-- What a free does. -/
structure SFree (pb : Nat) (s : CS Light) (A : AHeap) (O L : List (Nat × Nat)) (P : Res) (c : Ck) (s' : CS Light)
    (A' : AHeap) (L' : List (Nat × Nat)) : Prop where
  inv : SInv pb s' A' O L' P
  used : ∀ x, x ≠ c → (A'.Used x ↔ A.Used x)
  gone : ¬ Leak c → ¬ A'.Used c
  kept : Leak c → s' = s ∧ A' = A
  busy : s.c.noMerge = false → A.Busy → A'.Busy
  chain : s'.c = { s.c with status := s'.c.status, cnt := s'.c.cnt }
  shape : ∀ d ∈ A'.shape, d ∈ A.shape
  sub : ∀ e ∈ L', e ∈ L ∨ e ∈ A.shape
  osUsed : ∀ x, s.w.src.os.used x = true → (¬ A.SegAt x ∨ A'.SegAt x) → s'.w.src.os.used x = true
  osLe : s'.w.src.os.Le s.w.src.os
  frame : ∀ x, ¬ PoolAt pb x → (¬ A.SegAt x ∨ ∃ k, A.Used k ∧ k ≠ c ∧ k.uptr ≤ x ∧ x < k.addr + k.size) →
    s'.w.mem x = s.w.mem x

/-- Bytes of the frame are quiet. -/
theorem quiet_frame {pb : Nat} {A : AHeap} {c : Ck} {x : Nat} (W : A.WF pb) (hc : A.Used c) (h1 : ¬ PoolAt pb x)
    (h2 : ¬ A.SegAt x ∨ ∃ k, A.Used k ∧ k ≠ c ∧ k.uptr ≤ x ∧ x < k.addr + k.size) :
    Quiet pb A x ∧ (x < c.addr ∨ c.addr + c.size ≤ x) := by
  rcases h2 with h2 | ⟨k, hk, hne, h3, h4⟩
  · refine ⟨W.outside_quiet h1 h2, ?_⟩
    by_contra hx
    obtain ⟨g, hg, hcg⟩ := hc.1
    exact h2 (AHeap.segAt_ext W hg (Seg.mem_ext hcg) (by omega) (by omega))
  · refine ⟨W.user_quiet ⟨k, hk, h3, h4⟩, ?_⟩
    have := W.has_disj hk.1 hc.1 hne
    have := W.uptr_ge k
    omega

theorem delSeg_segAt {pb : Nat} {K : Ctx} {l : List Ck} {fl : Nat → List Ck} {x : Nat} (W : (K.fill l fl).WF pb)
    (h : (delSeg K fl).SegAt x) : x < K.base ∨ K.base + K.size ≤ x := by
  obtain ⟨g, hg, h1, h2⟩ := h
  have hd := W.disj
  unfold Ctx.fill at hd
  simp only at hd
  rcases List.mem_append.1 hg with hg | hg
  · have := (List.pairwise_append.1 hd).2.2 g hg (K.seg l) List.mem_cons_self
    simp only [Ctx.seg] at this
    omega
  · have := (List.pairwise_cons.1 (List.pairwise_append.1 hd).2.1).1 g hg
    simp only [Ctx.seg] at this
    omega

/-- Release of the bloc covered by the used chunk `m`, where the chunk `c` to free is in that bloc. -/
theorem DelBloc.free {pb : Nat} {s s1 s' : CS Light} {A : AHeap} {K : Ctx} {m c : Ck} {fl : Nat → List Ck}
    {O L L' : List (Nat × Nat)} {P : Res} (W : A.WF pb) (D : DelBloc pb s1 K fl O L P s' L') (hcU : A.Used c)
    (W1 : (K.fill [m] fl).WF pb)
    (hp : K.p = []) (hq : K.q = []) (hc1 : m.addr ≤ c.addr) (hc2 : c.addr + c.size ≤ m.addr + m.size)
    (hused : ∀ x, (K.Rest x ∧ ∃ p, x.st = .used p) ↔ A.Used x ∧ x ≠ c)
    (hshape : (K.fill [m] fl).shape = A.shape)
    (hs1 : s1.c = { s.c with status := s1.c.status }) (hos : s1.w.src = s.w.src)
    (hf : ∀ x, Quiet pb A x → (x < c.addr ∨ c.addr + c.size ≤ x) → s1.w.mem x = s.w.mem x) (hl : ¬ Leak c) :
    SFree pb s A O L P c s' (delSeg K fl) L' := by
  obtain ⟨w1, w2, w3⟩ := whole_bloc W1 hp hq
  have hu : ∀ x, (delSeg K fl).Used x ↔ A.Used x ∧ x ≠ c := by
    intro x
    constructor
    · intro h
      exact (hused x).1 ⟨(delSeg_used hp hq x h.2).1 h, h.2⟩
    · intro h
      have := (hused x).2 h
      exact (delSeg_used hp hq x this.2).2 this.1
  have hin : (K.base, K.size) ∈ A.shape := by rw [← hshape, fill_shape]; simp
  refine ⟨D.inv, fun x hx => by rw [hu]; exact ⟨fun h => h.1, fun h => ⟨h, hx⟩⟩, fun _ h => ((hu c).1 h).2 rfl,
    fun h => absurd h hl, ?_, by rw [D.chain, hs1], fun d hd => by rw [← hshape]; exact delSeg_sub hd,
    ?_, ?_, by rw [← hos]; exact D.osLe, ?_⟩
  · intro _ hB d hd
    have hd' : d ∈ A.shape := by rw [← hshape]; exact delSeg_sub hd
    obtain ⟨k, hk, k1, k2⟩ := hB d hd'
    refine ⟨k, (hu k).2 ⟨hk, ?_⟩, k1, k2⟩
    rintro rfl
    obtain ⟨g, hg, e⟩ := mem_shape.1 hd
    have := delSeg_segAt (x := k.addr) W1 ⟨g, hg, by rw [← e] at k1; exact k1, by rw [← e] at k2; exact k2⟩
    have h3 := (W.has_wf hcU.1).ge
    omega
  · intro e he
    rcases D.sub with h | h
    · rw [h] at he; exact Or.inl he
    · rw [h] at he
      rcases List.mem_cons.1 he with rfl | he
      · exact Or.inr hin
      · exact Or.inl he
  · intro x hx h
    refine D.used x (by rw [hos]; exact hx) ?_
    rcases h with h | h
    · by_contra hc
      obtain ⟨g, hg, e⟩ := mem_shape.1 hin
      obtain ⟨e1, e2⟩ := Prod.mk.inj e
      exact h ⟨g, hg, by omega, by omega⟩
    · exact delSeg_segAt W1 h
  · intro x h1 h2
    obtain ⟨q1, q2⟩ := quiet_frame W hcU h1 h2
    rw [D.frame x, hf x q1 q2]
    rcases h2 with h2 | ⟨k, hk, hne, h3, h4⟩
    · by_contra hc
      obtain ⟨g, hg, e⟩ := mem_shape.1 hin
      obtain ⟨e1, e2⟩ := Prod.mk.inj e
      exact h2 ⟨g, hg, by omega, by omega⟩
    · have hkd := (hu k).2 ⟨hk, hne⟩
      obtain ⟨g, hg, hkg⟩ := hkd.1
      have hb := (W1.seg g (delSeg_segs hg)).bounds hkg
      have := W.uptr_ge k
      have hge := (W1.seg g (delSeg_segs hg)).ge
      exact delSeg_segAt W1 ⟨g, hg, by omega, by omega⟩
end MpcAlloc
