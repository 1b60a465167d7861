import Verif.PosixSpec
import Verif.SourceStep
import Mathlib.Data.List.Perm.Basic

/-
Invariant of the process: the chains of all threads share the memory, the regions and the light source.
-/

namespace MpcAlloc

/-- What is known of the chain of a thread: address of its list heads, chunks, blocks in its remote free queue. -/
structure Gh where
  pb : Nat
  A : AHeap
  Q : List Ck

/-- Blocs of the chains. -/
def shapes (H : List Gh) : List (Nat × Nat) := H.flatMap (fun g => g.A.shape)

theorem mem_shapes {H : List Gh} {d : Nat × Nat} : d ∈ shapes H ↔ ∃ (t : Nat) (g : Gh), H[t]? = some g ∧ d ∈ g.A.shape := by
  unfold shapes
  rw [List.mem_flatMap]
  constructor
  · rintro ⟨g, hg, hd⟩
    obtain ⟨t, ht⟩ := List.mem_iff_getElem?.1 hg
    exact ⟨t, g, ht, hd⟩
  · rintro ⟨t, g, ht, hd⟩
    exact ⟨g, List.mem_of_getElem? ht, hd⟩

theorem shapes_perm {H : List Gh} {t : Nat} {g : Gh} (h : H[t]? = some g) :
    (shapes H).Perm (g.A.shape ++ shapes (H.eraseIdx t)) := by
  obtain ⟨ht, rfl⟩ := List.getElem?_eq_some_iff.1 h
  have := (List.getElem_cons_eraseIdx_perm ht).flatMap_right (fun g => g.A.shape)
  exact this.symm

theorem shapes_set {H : List Gh} {t : Nat} (h : t < H.length) (g : Gh) :
    (shapes (H.set t g)).Perm (g.A.shape ++ shapes (H.eraseIdx t)) := by
  have := shapes_perm (H := H.set t g) (t := t) (g := g) (by simp [h])
  rwa [List.eraseIdx_set_eq] at this

theorem shapes_other {H : List Gh} {t j : Nat} {g : Gh} (hj : H[j]? = some g) (hne : j ≠ t) {d : Nat × Nat}
    (hd : d ∈ g.A.shape) : d ∈ shapes (H.eraseIdx t) := by
  unfold shapes
  refine List.mem_flatMap.2 ⟨g, ?_, hd⟩
  exact List.mem_eraseIdx_iff_getElem?.2 ⟨j, hne, hj⟩

theorem get_set {α : Type} {l : List α} {t j : Nat} {a b : α} (h : (l.set t a)[j]? = some b) :
    (j = t ∧ b = a) ∨ (j ≠ t ∧ l[j]? = some b) := by
  by_cases e : t = j
  · subst e
    rw [List.getElem?_set_self' ] at h
    cases hl : l[t]? with
    | none => rw [hl] at h; cases h
    | some x => rw [hl] at h; exact Or.inl ⟨rfl, (Option.some.inj h).symm⟩
  · rw [List.getElem?_set_ne e] at h
    exact Or.inr ⟨fun e' => e e'.symm, h⟩

theorem set_get {α : Type} {l : List α} {t : Nat} {a b : α} (h : l[t]? = some b) : (l.set t a)[t]? = some a := by
  rw [List.getElem?_set_self (List.getElem?_eq_some_iff.1 h).1]

theorem map_set_eq {α β : Type} {l : List α} {f : α → β} {t : Nat} {a b : α} (h : l[t]? = some b) (e : f a = f b) :
    (l.set t a).map f = l.map f := by
  rw [List.map_set, e]
  refine List.ext_getElem? (fun i => ?_)
  by_cases hi : t = i
  · subst hi
    rw [List.getElem?_set_self (by simpa using (List.getElem?_eq_some_iff.1 h).1), List.getElem?_map, h]
    rfl
  · rw [List.getElem?_set_ne hi]

/-- State of the chain `c` of a thread. -/
structure ThOK (w : World Light) (P : Res) (c : Chain) (g : Gh) : Prop where
  ch : ChSt g.pb w.mem c g.A
  q : QAt ⟨w, c⟩ g.A g.Q
  flag : c.threadSafe = false ∧ c.noMerge = false
  pos : 0 < c.addr
  lt : c.addr < W64
  pool : (g.pb, 1536) ∈ P
  addr : (c.addr, 1) ∈ P

/-- The threads and the rest of the process: its memory is reserved, apart from the structures of the threads, and has
the contents given by the environment. -/
structure EnvOK (s : PS) (H : List Gh) (P : Res) : Prop where
  area : ∀ x, P.env.mine x → ∃ d ∈ P, d.1 ≤ x ∧ x < d.1 + d.2
  pool : ∀ x, P.env.mine x → ∀ (t : Nat) (g : Gh), H[t]? = some g → ¬ PoolAt g.pb x
  addr : ∀ x, P.env.mine x → ∀ (t : Nat) (c : Chain), s.chs[t]? = some c → c.addr ≠ x
  val : ∀ x, P.env.mine x → s.w.mem x = P.env.val x
  addrs : s.chs.map Chain.addr = P.env.ths.map Prod.fst
  pbs : H.map Gh.pb = P.env.ths.map Prod.snd

/-- State of the process. `L` are the cached blocs of the source, `P` the reserved areas. -/
structure PBase (s : PS) (H : List Gh) (L : List (Nat × Nat)) (P : Res) : Prop where
  len : s.chs.length = H.length
  th : ∀ (t : Nat) (c : Chain) (g : Gh), s.chs[t]? = some c → H[t]? = some g → ThOK s.w P c g
  lin : LInv s.w.mem s.w.src (shapes H) L
  reg : RegInv s.w.mem s.w.regs (shapes H ++ P.env.blocs)
  low : (0, MB2 + 1) ∈ P
  resU : ∀ d ∈ P, ∀ x, d.1 ≤ x → x < d.1 + d.2 → s.w.src.os.used x = true
  resD : ∀ d ∈ P, ∀ e ∈ shapes H ++ L, ∀ x, d.1 ≤ x → x < d.1 + d.2 → x < e.1 ∨ e.1 + e.2 ≤ x
  addrs : ∀ (i j : Nat) (ci cj : Chain), s.chs[i]? = some ci → s.chs[j]? = some cj → ci.addr = cj.addr → i = j
  pools : ∀ (i j : Nat) (gi gj : Gh), H[i]? = some gi → H[j]? = some gj → i ≠ j →
    gi.pb + 1536 ≤ gj.pb ∨ gj.pb + 1536 ≤ gi.pb
  ext : ∀ d ∈ P.env.blocs, d ∈ P ∧ ∀ (t : Nat) (g : Gh), H[t]? = some g → g.pb + 1536 ≤ d.1 ∨ d.1 + 16 ≤ g.pb
  env : EnvOK s H P

/-- A thread has a chain. -/
theorem PBase.get {s : PS} {H : List Gh} {L : List (Nat × Nat)} {P : Res} (B : PBase s H L P) {t : Nat} (h : t < s.chs.length) :
    ∃ c g, s.chs[t]? = some c ∧ H[t]? = some g ∧ ThOK s.w P c g := by
  have h2 : t < H.length := B.len ▸ h
  exact ⟨_, _, List.getElem?_eq_getElem h, List.getElem?_eq_getElem h2,
    B.th t _ _ (List.getElem?_eq_getElem h) (List.getElem?_eq_getElem h2)⟩

theorem PBase.getH {s : PS} {H : List Gh} {L : List (Nat × Nat)} {P : Res} (B : PBase s H L P) {t : Nat} {g : Gh}
    (h : H[t]? = some g) : ∃ c, s.chs[t]? = some c ∧ ThOK s.w P c g := by
  obtain ⟨h1, h2⟩ := List.getElem?_eq_some_iff.1 h
  have h3 : t < s.chs.length := B.len ▸ h1
  exact ⟨_, List.getElem?_eq_getElem h3, B.th t _ _ (List.getElem?_eq_getElem h3) h⟩

/-- The chain of a thread, with the others as blocs it must not touch. -/
theorem PBase.at {s : PS} {H : List Gh} {L : List (Nat × Nat)} {P : Res} (B : PBase s H L P) {t : Nat} {c : Chain} {g : Gh}
    (hc : s.chs[t]? = some c) (hg : H[t]? = some g) : SInv g.pb ⟨s.w, c⟩ g.A (shapes (H.eraseIdx t)) L P where
  ch := (B.th t c g hc hg).ch
  lin := B.lin.perm (shapes_perm hg)
  reg := B.reg.congrSet (fun d => ((shapes_perm hg).append_right _).mem_iff.symm)
  pool := (B.th t c g hc hg).pool
  resU := B.resU
  resD := fun d hd e he => B.resD d hd e (by
    rcases List.mem_append.1 he with h | h
    · exact List.mem_append_left _ ((shapes_perm hg).mem_iff.2 h)
    · exact List.mem_append_right _ h)
  ext := fun d hd => ⟨(B.ext d hd).1, (B.ext d hd).2 t g hg⟩

/-- Segment of a chunk. -/
theorem seg_of_has {pb : Nat} {A : AHeap} (W : A.WF pb) {k : Ck} (h : A.Has k) :
    ∃ d ∈ A.shape, d.1 + 32 ≤ k.addr ∧ k.addr + k.size + 16 ≤ d.1 + d.2 := by
  obtain ⟨g, hg, hk⟩ := h
  have h1 := (W.seg g hg).bounds hk
  have h2 := (W.seg g hg).ge
  exact ⟨(g.base, g.size), mem_shape.2 ⟨g, hg, rfl⟩, h1.1, by simp only; omega⟩

theorem segAt_shape {A : AHeap} {x : Nat} : A.SegAt x ↔ ∃ d ∈ A.shape, d.1 ≤ x ∧ x < d.1 + d.2 := by
  constructor
  · rintro ⟨g, hg, h⟩
    exact ⟨_, mem_shape.2 ⟨g, hg, rfl⟩, h⟩
  · rintro ⟨d, hd, h⟩
    obtain ⟨g, hg, rfl⟩ := mem_shape.1 hd
    exact ⟨g, hg, h⟩

/-- Blocs of different chains are disjoint. -/
theorem PBase.apart {s : PS} {H : List Gh} {L : List (Nat × Nat)} {P : Res} (B : PBase s H L P) {i j : Nat} {gi gj : Gh}
    (hi : H[i]? = some gi) (hj : H[j]? = some gj) (hne : i ≠ j) {d e : Nat × Nat} (hd : d ∈ gi.A.shape)
    (he : e ∈ gj.A.shape) : Apart d e := by
  have h := ((B.lin.perm (shapes_perm hi)).apart)
  have h1 := (List.pairwise_append.1 (List.pairwise_append.1 h).1).2.2
  exact h1 d hd e (shapes_other hj (Ne.symm hne) he)

/-- Two different blocks do not overlap. -/
theorem PBase.disj {s : PS} {H : List Gh} {L : List (Nat × Nat)} {P : Res} (B : PBase s H L P) {i j : Nat} {gi gj : Gh}
    (hi : H[i]? = some gi) (hj : H[j]? = some gj) {k l : Ck} (hk : gi.A.Used k) (hl : gj.A.Used l)
    (hne : i ≠ j ∨ k ≠ l) : k.addr + k.size ≤ l.addr ∨ l.addr + l.size ≤ k.addr := by
  obtain ⟨ci, hci, Ti⟩ := B.getH hi
  obtain ⟨cj, hcj, Tj⟩ := B.getH hj
  by_cases hij : i = j
  · subst hij
    obtain rfl : gi = gj := Option.some.inj (hi.symm.trans hj)
    exact Ti.ch.wf.has_disj hk.1 hl.1 (by simpa using hne)
  · obtain ⟨d, hd, d1, d2⟩ := seg_of_has Ti.ch.wf hk.1
    obtain ⟨e, he, e1, e2⟩ := seg_of_has Tj.ch.wf hl.1
    have := B.apart hi hj hij hd he
    unfold Apart at this
    omega

/-- The pointer determines the block. -/
theorem PBase.inj {s : PS} {H : List Gh} {L : List (Nat × Nat)} {P : Res} (B : PBase s H L P) {i j : Nat} {gi gj : Gh}
    (hi : H[i]? = some gi) (hj : H[j]? = some gj) {k l : Ck} (hk : gi.A.Used k) (hl : gj.A.Used l)
    (he : k.uptr = l.uptr) : i = j ∧ k = l := by
  by_contra hc
  obtain ⟨ci, hci, Ti⟩ := B.getH hi
  obtain ⟨cj, hcj, Tj⟩ := B.getH hj
  have h := B.disj hi hj hk hl (by
    by_contra h
    rw [not_or, not_not, not_not] at h
    exact hc h)
  have r1 := Ti.ch.room k hk
  have r2 := Tj.ch.room l hl
  have := Ti.ch.wf.uptr_ge k
  have := Tj.ch.wf.uptr_ge l
  omega

/-- A step on the chain of one thread. -/
theorem PBase.step {s : PS} {H : List Gh} {L : List (Nat × Nat)} {P : Res} (B : PBase s H L P) {t : Nat} {c : Chain} {g : Gh}
    (hc : s.chs[t]? = some c) (hg : H[t]? = some g) {X : Ck → Prop} {u : CS Light} {A' : AHeap} {L' : List (Nat × Nat)}
    {Q' : List Ck} (S : SStep g.pb ⟨s.w, c⟩ g.A (shapes (H.eraseIdx t)) L P X u A' L') (q : QAt u A' Q') :
    PBase (s.put t u) (H.set t ⟨g.pb, A', Q'⟩) L' P := by
  have T := B.th t c g hc hg
  have htl : t < H.length := (List.getElem?_eq_some_iff.1 hg).1
  have htc : t < s.chs.length := (List.getElem?_eq_some_iff.1 hc).1
  have hget : ∀ (j : Nat) (c' : Chain), (s.put t u).chs[j]? = some c' → (j = t ∧ c' = u.c) ∨ (j ≠ t ∧ s.chs[j]? = some c') :=
    fun j c' h => get_set h
  have hgetH : ∀ (j : Nat) (g' : Gh), (H.set t ⟨g.pb, A', Q'⟩)[j]? = some g' →
      (j = t ∧ g' = ⟨g.pb, A', Q'⟩) ∨ (j ≠ t ∧ H[j]? = some g') := fun j g' h => get_set h
  have hperm := shapes_set htl ⟨g.pb, A', Q'⟩
  constructor
  · simp [PS.put, B.len]
  · intro j c' g' h1 h2
    rcases hget j c' h1 with ⟨rfl, rfl⟩ | ⟨hj, h1⟩
    · rcases hgetH j g' h2 with ⟨_, rfl⟩ | ⟨hj, _⟩
      · have f := S.flag
        have a := S.addr
        exact ⟨S.inv.ch, q, ⟨f.1.trans T.flag.1, f.2.trans T.flag.2⟩, by rw [a]; exact T.pos, by rw [a]; exact T.lt,
          T.pool, by rw [a]; exact T.addr⟩
      · exact absurd rfl hj
    · rcases hgetH j g' h2 with ⟨rfl, _⟩ | ⟨_, h2⟩
      · exact absurd rfl hj
      · have Tj := B.th j c' g' h1 h2
        have hseg : ∀ x, g'.A.SegAt x → u.w.mem x = s.w.mem x := by
          intro x hx
          obtain ⟨d, hd, d1, d2⟩ := segAt_shape.1 hx
          exact S.frame x (Or.inl ⟨d, shapes_other h2 hj hd, d1, d2⟩)
        refine ⟨?_, ?_, Tj.flag, Tj.pos, Tj.lt, Tj.pool, Tj.addr⟩
        · refine Tj.ch.congr ?_
          rintro x (hx | hx)
          · refine S.frame x (Or.inr (Or.inl ⟨?_, (g'.pb, 1536), Tj.pool, hx⟩))
            intro hp
            have := B.pools j t g' g h2 hg hj
            unfold PoolAt at hx hp
            omega
          · exact hseg x hx
        · have W := Tj.ch.wf
          refine ⟨Tj.q.list.congr ?_, Tj.q.tail, Tj.q.used, Tj.q.nodup⟩
          intro k hk x h3 h4
          have hu := Tj.q.used k hk
          obtain ⟨d, hd, d1, d2⟩ := seg_of_has W hu.1
          have := Tj.ch.room k hu
          have := W.uptr_ge k
          exact hseg x (segAt_shape.2 ⟨d, hd, by omega, by omega⟩)
  · exact S.inv.lin.perm hperm.symm
  · exact S.inv.reg.congrSet (fun d => (hperm.append_right _).mem_iff)
  · exact B.low
  · exact S.inv.resU
  · intro d hd e he
    refine S.inv.resD d hd e ?_
    rcases List.mem_append.1 he with h | h
    · exact List.mem_append_left _ (hperm.mem_iff.1 h)
    · exact List.mem_append_right _ h
  · intro i j ci cj hi hj he
    rcases hget i ci hi with ⟨e1, e2⟩ | ⟨_, hi'⟩ <;> rcases hget j cj hj with ⟨f1, f2⟩ | ⟨_, hj'⟩
    · omega
    · rw [e2, S.addr] at he
      rw [e1]
      exact B.addrs _ _ _ _ hc hj' he
    · rw [f2, S.addr] at he
      rw [f1]
      exact B.addrs _ _ _ _ hi' hc he
    · exact B.addrs _ _ _ _ hi' hj' he
  · intro i j gi gj hi hj hne
    rcases hgetH i gi hi with ⟨e1, e2⟩ | ⟨_, hi'⟩ <;> rcases hgetH j gj hj with ⟨f1, f2⟩ | ⟨_, hj'⟩
    · omega
    · rw [e2]
      exact B.pools t j g gj hg hj' (by omega)
    · rw [f2]
      exact B.pools i t gi g hi' hg (by omega)
    · exact B.pools _ _ _ _ hi' hj' hne
  · intro d hd
    refine ⟨(B.ext d hd).1, fun j g' h => ?_⟩
    rcases hgetH j g' h with ⟨_, rfl⟩ | ⟨_, h⟩
    · exact (B.ext d hd).2 t g hg
    · exact (B.ext d hd).2 j g' h
  · have E := B.env
    refine ⟨E.area, fun x hx j g' h => ?_, fun x hx j c' h => ?_, fun x hx => ?_, ?_, ?_⟩
    · rcases hgetH j g' h with ⟨_, rfl⟩ | ⟨_, h⟩
      · exact E.pool x hx t g hg
      · exact E.pool x hx j g' h
    · rcases hget j c' h with ⟨_, rfl⟩ | ⟨_, h⟩
      · rw [S.addr]; exact E.addr x hx t c hc
      · exact E.addr x hx j c' h
    · rw [← E.val x hx]
      exact S.frame x (Or.inr (Or.inl ⟨E.pool x hx t g hg, E.area x hx⟩))
    · rw [← E.addrs]
      exact map_set_eq hc S.addr
    · rw [← E.pbs]
      exact map_set_eq hg rfl

/-- The queue after a step that keeps its blocks. -/
theorem SStep.queue {pb : Nat} {s s' : CS Light} {A A' : AHeap} {O L L' : List (Nat × Nat)} {P : Res} {X : Ck → Prop} {Q : List Ck}
    (S : SStep pb s A O L P X s' A' L') (I : SInv pb s A O L P) (q : QAt s A Q) (hX : ∀ k ∈ Q, X k)
    (h : s'.c.rfqHead = s.c.rfqHead ∧ s'.c.rfqTail = s.c.rfqTail) : QAt s' A' Q := by
  refine ⟨?_, by rw [h.2]; exact q.tail, fun k hk => S.keep k (q.used k hk) (hX k hk), q.nodup⟩
  rw [h.1]
  refine q.list.congr ?_
  intro k hk x h1 h2
  have hu := q.used k hk
  have := I.ch.room k hu
  exact S.frame x (Or.inr (Or.inr ⟨k, hu, hX k hk, h1, by omega⟩))

/-- Blocks of the client and chunks. With `cl`: no chunk is lost. -/
structure PBlk (cl : Prop) (G : PSpec) (H : List Gh) : Prop where
  live : ∀ l ∈ G.live, ∃ g k, H[l.owner]? = some g ∧ g.A.Used k ∧ k ∉ g.Q ∧ k.uptr = l.ptr ∧
    l.ptr + l.len ≤ k.addr + k.size ∧ (l.plain = true → k.st = .used none)
  pend : ∀ l ∈ G.pend, ∃ g k, H[l.owner]? = some g ∧ k ∈ g.Q ∧ k.uptr = l.ptr ∧ l.ptr + l.len ≤ k.addr + k.size
  nodup : (G.live ++ G.pend).Pairwise (fun l l' => l.ptr ≠ l'.ptr)
  clean : cl → ∀ (t : Nat) (g : Gh), H[t]? = some g → g.A.Busy ∧
    ∀ k, g.A.Used k → ¬ Leak k ∧ ∃ l ∈ G.live ++ G.pend, l.owner = t ∧ l.ptr = k.uptr

/-- Invariant of the process. -/
def PInv (Ω : Env) (cl : Prop) (s : PS) (G : PSpec) : Prop := ∃ H L D, PBase s H L ⟨D, Ω⟩ ∧ PBlk cl G H

variable {Ω : Env}

/-- The blocks `Z` are kept. -/
def Keeps (s s' : PS) (G : PSpec) (Z : PBlock → Prop) : Prop :=
  ∀ l ∈ G.live, Z l → ∀ x, l.Byte x → s'.w.mem x = s.w.mem x

theorem PS.loc_eq {s : PS} {t : Nat} {c : Chain} (h : s.chs[t]? = some c) : s.loc t = .ok ⟨s.w, c⟩ := by
  unfold PS.loc; rw [h]

theorem ptr_eq_of_nodup {M : List PBlock} (h : M.Pairwise (fun l l' => l.ptr ≠ l'.ptr)) {l l' : PBlock} (hl : l ∈ M)
    (hl' : l' ∈ M) (he : l.ptr = l'.ptr) : l = l' := by
  by_contra hne
  exact pairwise_mem (fun x y h => Ne.symm h) h hl hl' hne he

/-- Bytes of a block, seen by a step of some chain. -/
theorem PBase.keepByte {s : PS} {H : List Gh} {L : List (Nat × Nat)} {P : Res} (B : PBase s H L P) {t i : Nat} {g gi : Gh}
    (hg : H[t]? = some g) (hi : H[i]? = some gi) {k : Ck} (hk : gi.A.Used k) {X : Ck → Prop} (hX : i = t → X k)
    {x : Nat} (h1 : k.uptr ≤ x) (h2 : x < k.addr + k.size) : SKeep g.pb g.A (shapes (H.eraseIdx t)) P X x := by
  by_cases e : i = t
  · subst e
    obtain rfl : gi = g := Option.some.inj (hi.symm.trans hg)
    exact Or.inr (Or.inr ⟨k, hk, hX rfl, h1, h2⟩)
  · obtain ⟨ci, hci, Ti⟩ := B.getH hi
    obtain ⟨d, hd, d1, d2⟩ := seg_of_has Ti.ch.wf hk.1
    have := Ti.ch.wf.uptr_ge k
    exact Or.inl ⟨d, shapes_other hi e hd, by omega, by omega⟩

/-- The live blocks kept by a step of the chain of thread `t`. -/
theorem PBase.keeps {cl : Prop} {s : PS} {G : PSpec} {H : List Gh} {L : List (Nat × Nat)} {P : Res} (B : PBase s H L P)
    (K : PBlk cl G H) {t : Nat} {c : Chain} {g : Gh} (hg : H[t]? = some g) {X : Ck → Prop} {u : CS Light} {A' : AHeap}
    {L' : List (Nat × Nat)} (S : SStep g.pb ⟨s.w, c⟩ g.A (shapes (H.eraseIdx t)) L P X u A' L') {Z : PBlock → Prop}
    (hZ : ∀ l ∈ G.live, Z l → l.owner = t → ∀ k, g.A.Used k → k ∉ g.Q → k.uptr = l.ptr → X k) :
    Keeps s (s.put t u) G Z := by
  intro l hl hz x hx
  obtain ⟨gi, k, hi, hk, hq, hp, hfit, _⟩ := K.live l hl
  unfold PBlock.Byte at hx
  refine S.frame x (B.keepByte hg hi hk (fun e => ?_) (by omega) (by omega))
  subst e
  obtain rfl : gi = g := Option.some.inj (hi.symm.trans hg)
  exact hZ l hl hz rfl k hk hq hp

/-- The calling thread takes back the blocks freed by the others. -/
theorem purge_eff {C : Config} {cl : Prop} {s : PS} {G : PSpec} (I : PInv Ω cl s G) {t : Nat} {c : Chain}
    (hc : s.chs[t]? = some c) :
    ∃ u, purgeRfq (lightSource C) C ⟨s.w, c⟩ = .ok u ∧ PInv Ω cl (s.put t u) (G.drain t) ∧
      Keeps s (s.put t u) G (fun _ => True) ∧ u.c.addr = c.addr ∧ u.w.src.os.Le s.w.src.os := by
  obtain ⟨H, L, P, B, K⟩ := I
  obtain ⟨c', g, hc', hg, T⟩ := B.get (List.getElem?_eq_some_iff.1 hc).1
  obtain rfl : c' = c := Option.some.inj (hc'.symm.trans hc)
  obtain ⟨u, A', L', e, R, q'⟩ := purge_ok (C := C) (B.at hc hg) T.q
  refine ⟨u, e, ⟨_, L', P, B.step hc hg R.step q', ?_⟩, B.keeps K hg R.step (fun l _ _ _ k _ hq _ => hq), R.step.addr,
    R.osLe⟩
  have hsub : ∀ l, l ∈ (G.drain t).pend ↔ l ∈ G.pend ∧ l.owner ≠ t := by
    intro l; simp [PSpec.drain]
  constructor
  · intro l hl
    obtain ⟨gi, k, hi, hk, hq, hp⟩ := K.live l hl
    by_cases ht : l.owner = t
    · rw [ht] at hi ⊢
      obtain rfl : gi = g := Option.some.inj (hi.symm.trans hg)
      exact ⟨_, k, set_get hg, R.step.keep k hk hq, by simp, hp⟩
    · exact ⟨gi, k, by rw [List.getElem?_set_ne (Ne.symm ht)]; exact hi, hk, hq, hp⟩
  · intro l hl
    obtain ⟨hl, ht⟩ := (hsub l).1 hl
    obtain ⟨gi, k, hi, h⟩ := K.pend l hl
    exact ⟨gi, k, by rw [List.getElem?_set_ne (Ne.symm ht)]; exact hi, h⟩
  · refine K.nodup.sublist ?_
    exact List.Sublist.append (List.Sublist.refl _) List.filter_sublist
  · intro hcl j gj hj
    rcases get_set hj with ⟨rfl, rfl⟩ | ⟨hne, hj⟩
    · obtain ⟨b1, b2⟩ := K.clean hcl j g hg
      refine ⟨R.busy T.flag.2 b1, fun k hk => ?_⟩
      obtain ⟨h1, h2⟩ := R.back k hk
      obtain ⟨h3, l, hl, h4, h5⟩ := b2 k h1
      refine ⟨h3, l, ?_, h4, h5⟩
      rcases List.mem_append.1 hl with hl | hl
      · exact List.mem_append_left _ hl
      · exfalso
        obtain ⟨gi, k', hi, hk', hp, _⟩ := K.pend l hl
        rw [h4] at hi
        obtain rfl : gi = g := Option.some.inj (hi.symm.trans hg)
        obtain ⟨_, rfl⟩ := B.inj hg hg (T.q.used k' hk') h1 (hp.trans h5)
        exact h3 (h2 hk')
    · obtain ⟨b1, b2⟩ := K.clean hcl j gj hj
      refine ⟨b1, fun k hk => ?_⟩
      obtain ⟨h3, l, hl, h4, h5⟩ := b2 k hk
      refine ⟨h3, l, ?_, h4, h5⟩
      rcases List.mem_append.1 hl with hl | hl
      · exact List.mem_append_left _ hl
      · exact List.mem_append_right _ ((hsub l).2 ⟨hl, by omega⟩)

theorem reqSize_eq (b n : Nat) : reqSize b n = alignedSize b (if n = 0 then 1 else n) := by
  unfold reqSize alignedSize
  split <;> split <;> omega

theorem PSize.fits {N : Nat} (h : PSize N) : Fits N := by
  unfold PSize at h
  rcases h.2 with h2 | h2
  · left; rw [calc_eq (by omega)]; omega
  · right; exact h2

theorem CleanSize.cut {N : Nat} (h : CleanSize N) (h2 : PSize N) : calcChunkSize N ≤ 1048576 → cutSize N ≤ 1048544 := by
  unfold cutSize
  unfold CleanSize at h
  unfold PSize at h2
  rw [calc_eq (by omega)]
  omega

/-- A bloc refused by the kernel. -/
theorem Refused.fresh {C : Config} {s : CS Light} {L : List (Nat × Nat)} {k N : Nat} (h : Refused C s L k) (hk : k ≤ N + 32) :
    ¬ s.w.src.os.Fresh (s.w.src.os.ans s.w.src.os.k) (N + 80 + MB2) := by
  rintro ⟨_, f1, f2, f3, f4⟩
  have hb := blocSize_facts k
  have hle : pageUp (blocSize k) ≤ pageUp (N + 80 + MB2) := by unfold pageUp; omega
  refine h.1 ⟨by omega, f1, f2, by omega, fun i hi => f4 i (by omega)⟩

theorem Os.Le.fresh {o o' : Os} (h : o'.Le o) {N : Nat} (f : o.Fresh (o.ans o.k) N) : o'.Fresh (o'.ans o'.k) N := by
  obtain ⟨f0, f1, f2, f3, f4⟩ := f
  rw [h.1, h.2.1]
  refine ⟨f0, f1, f2, f3, fun i hi => ?_⟩
  by_contra hc
  have := h.2.2 _ (by simpa using hc)
  rw [f4 i hi] at this
  cases this

/-- A thread allocates. -/
theorem alloc_eff {C : Config} {cl : Prop} {s : PS} {G : PSpec} (I : PInv Ω cl s G) {t b n N : Nat} {c : Chain}
    (hc : s.chs[t]? = some c) (hb : GoodBound b) (hn : n ≠ 0) (hN : alignedSize b n = N) (hsz : PSize N)
    (hcl : cl → CleanSize N) :
    (¬ s.w.src.os.Fresh (s.w.src.os.ans s.w.src.os.k) (N + 80 + MB2) ∧
      allocAlign (lightSource C) ⟨s.w, c⟩ b n = .ub) ∨
    ∃ u r, allocAlign (lightSource C) ⟨s.w, c⟩ b n = .ok (u, r) ∧ r ≠ 0 ∧ u.c.addr = c.addr ∧
      (1 < b → b ∣ r) ∧ (b ≤ 1 → 16 ∣ r) ∧ Keeps s (s.put t u) G (fun _ => True) ∧
      ∀ n', n' ≤ n → PInv Ω cl (s.put t u) (G.add t r n' (decide (b ≤ 1))) := by
  obtain ⟨H, L, P, B, K⟩ := I
  obtain ⟨c', g, hc', hg, T⟩ := B.get (List.getElem?_eq_some_iff.1 hc).1
  obtain rfl : c' = c := Option.some.inj (hc'.symm.trans hc)
  have I := B.at hc hg
  subst hN
  rcases salloc_ok (C := C) I hb hn hsz.1 hsz.fits with ⟨⟨k, hk, hr⟩, e⟩ | ⟨u, d, A', L', e, R⟩
  · exact Or.inl ⟨hr.fresh hk, e⟩
  right
  have S := R.step I (fun _ => True)
  have q' : QAt u A' g.Q := S.queue I T.q (fun _ _ => trivial) (by rw [R.chain]; exact ⟨rfl, rfl⟩)
  have B' := B.step hc hg S q'
  refine ⟨u, d.uptr, e, R.nz, S.addr, R.align, R.align16, B.keeps K hg S (fun _ _ _ _ _ _ _ _ => trivial), fun n' hn' =>
    ⟨_, L', P, B', ?_⟩⟩
  have hdU : A'.Used d := (R.used d).2 (Or.inr rfl)
  have hdQ : d ∉ g.Q := fun h => R.fresh (T.q.used d h)
  have hg' := set_get (a := (⟨g.pb, A', g.Q⟩ : Gh)) hg
  have hnew : ∀ l ∈ G.live ++ G.pend, d.uptr ≠ l.ptr := by
    intro l hl he
    have hx : ∃ gi k, H[l.owner]? = some gi ∧ gi.A.Used k ∧ k.uptr = l.ptr := by
      rcases List.mem_append.1 hl with hl | hl
      · obtain ⟨gi, k, hi, hk, _, hp, _⟩ := K.live l hl
        exact ⟨gi, k, hi, hk, hp⟩
      · obtain ⟨gi, k, hi, hk, hp, _⟩ := K.pend l hl
        obtain ⟨ci, _, Ti⟩ := B.getH hi
        exact ⟨gi, k, hi, Ti.q.used k hk, hp⟩
    obtain ⟨gi, k, hi, hk, hp⟩ := hx
    by_cases ht : l.owner = t
    · rw [ht] at hi
      obtain rfl : gi = g := Option.some.inj (hi.symm.trans hg)
      obtain ⟨_, rfl⟩ := B'.inj hg' hg' hdU ((R.used k).2 (Or.inl hk)) (by rw [he, hp])
      exact R.fresh hk
    · have hi' : (H.set t ⟨g.pb, A', g.Q⟩)[l.owner]? = some gi := by rw [List.getElem?_set_ne (Ne.symm ht)]; exact hi
      exact ht (B'.inj hg' hi' hdU hk (by rw [he, hp])).1.symm
  have hadd : G.add t d.uptr n' (decide (b ≤ 1)) = { G with live := ⟨t, d.uptr, n', decide (b ≤ 1)⟩ :: G.live } := by
    unfold PSpec.add; rw [if_neg R.nz]
  rw [hadd]
  constructor
  · intro l hl
    rcases List.mem_cons.1 hl with rfl | hl
    · refine ⟨_, d, hg', hdU, hdQ, rfl, ?_, fun h => R.noPad (by simpa using h)⟩
      have := R.fit
      simp only; omega
    · obtain ⟨gi, k, hi, hk, hq, hp⟩ := K.live l hl
      by_cases ht : l.owner = t
      · rw [ht] at hi ⊢
        obtain rfl : gi = g := Option.some.inj (hi.symm.trans hg)
        exact ⟨_, k, hg', (R.used k).2 (Or.inl hk), hq, hp⟩
      · exact ⟨gi, k, by rw [List.getElem?_set_ne (Ne.symm ht)]; exact hi, hk, hq, hp⟩
  · intro l hl
    obtain ⟨gi, k, hi, hk, hp⟩ := K.pend l hl
    by_cases ht : l.owner = t
    · rw [ht] at hi ⊢
      obtain rfl : gi = g := Option.some.inj (hi.symm.trans hg)
      exact ⟨_, k, hg', hk, hp⟩
    · exact ⟨gi, k, by rw [List.getElem?_set_ne (Ne.symm ht)]; exact hi, hk, hp⟩
  · exact List.pairwise_cons.2 ⟨hnew, K.nodup⟩
  · intro h j gj hj
    rcases get_set hj with ⟨rfl, rfl⟩ | ⟨hne, hj⟩
    · obtain ⟨b1, b2⟩ := K.clean h j g hg
      refine ⟨R.busy b1, fun k hk => ?_⟩
      rcases (R.used k).1 hk with hk | rfl
      · obtain ⟨h3, l, hl, h4⟩ := b2 k hk
        exact ⟨h3, l, List.mem_cons_of_mem _ hl, h4⟩
      · exact ⟨R.noLeak ((hcl h).cut hsz), _, List.mem_cons_self, rfl, rfl⟩
    · obtain ⟨b1, b2⟩ := K.clean h j gj hj
      refine ⟨b1, fun k hk => ?_⟩
      obtain ⟨h3, l, hl, h4⟩ := b2 k hk
      exact ⟨h3, l, List.mem_cons_of_mem _ hl, h4⟩

/-- The lookup of an address of a registered bloc. -/
theorem RegInv.lookup {m : Mem} {R : Regions} {B : List (Nat × Nat)} (I : RegInv m R B) {p : Nat} {d : Nat × Nat}
    (hd : d ∈ B) (hp1 : d.1 ≤ p) (hp2 : p < d.1 + d.2) (h1 : MB2 < p) :
    ∃ R', regionGetMacroBloc m R p = .ok (R', d.1) ∧ RegInv m R' B := by
  obtain ⟨g0, g1, g2, g3, g4⟩ := I.bloc d hd
  obtain ⟨R', q, e, ok', ent', hq⟩ := regionGetMacroBloc_ent (m := m) (p := p) I.ok (by omega)
  refine ⟨R', ?_, ⟨ok', I.bloc, I.disj, fun d hd k => by rw [ent']; exact I.set d hd k,
    fun k hk => by rw [ent'] at hk ⊢; exact I.own k hk⟩⟩
  rw [e, hq]
  congr 2
  by_cases hin : p / MB2 < d.1 / MB2 + d.2 / MB2
  · have := I.set d hd (p / MB2) (by omega) hin
    rw [if_neg (by omega)]; exact this
  · have hprev := I.set d hd (p / MB2 - 1) (by omega) (by omega)
    rw [if_pos, hprev, g4, add64_eq (by omega), if_pos (by omega)]
    refine ⟨?_, h1⟩
    by_contra hc
    obtain ⟨f, hf, f1, f2, f3⟩ := I.own (p / MB2) (by omega)
    have gf := I.bloc f hf
    rcases I.disj d hd f hf with rfl | hdf | hdf <;> omega

/-- Same process, other cached part of the regions. -/
def PS.setRegs (s : PS) (R : Regions) : PS := { s with w := { s.w with regs := R } }

theorem PBase.setRegs {s : PS} {H : List Gh} {L : List (Nat × Nat)} {P : Res} (B : PBase s H L P) {R : Regions}
    (h : RegInv s.w.mem R (shapes H ++ P.env.blocs)) : PBase (s.setRegs R) H L P :=
  ⟨B.len, fun t c g hc hg =>
    let T := B.th t c g hc hg
    ⟨T.ch, ⟨T.q.list, T.q.tail, T.q.used, T.q.nodup⟩, T.flag, T.pos, T.lt, T.pool, T.addr⟩, B.lin, h, B.low, B.resU,
    B.resD, B.addrs, B.pools, B.ext, ⟨B.env.area, B.env.pool, B.env.addr, B.env.val, B.env.addrs, B.env.pbs⟩⟩

theorem PBase.chainAt {s : PS} {H : List Gh} {L : List (Nat × Nat)} {P : Res} (B : PBase s H L P) {i : Nat} {c : Chain}
    (hc : s.chs[i]? = some c) : s.chainAt c.addr = .ok i := by
  unfold PS.chainAt
  have : s.chs.findIdx? (fun d => decide (d.addr = c.addr)) = some i := by
    rw [List.findIdx?_eq_some_iff_getElem]
    obtain ⟨hi, he⟩ := List.getElem?_eq_some_iff.1 hc
    refine ⟨hi, by simp [he], fun j hj => ?_⟩
    have hjl : j < s.chs.length := by omega
    have hne : s.chs[j].addr ≠ c.addr := by
      intro h
      have := B.addrs j i _ _ (List.getElem?_eq_getElem hjl) hc h
      omega
    simp [hne]
  rw [this]

/-- The search for the chain of a block. -/
theorem lookup_eff {cl : Prop} {s : PS} {G : PSpec} (I : PInv Ω cl s G) {l : PBlock} (hl : l ∈ G.live) :
    ∃ R b c, regionGetMacroBloc s.w.mem s.w.regs l.ptr = .ok (R, b) ∧ b ≠ 0 ∧ readLE s.w.mem (b + 16) 8 = c.addr ∧
      c.addr ≠ 0 ∧ s.chs[l.owner]? = some c ∧ (s.setRegs R).chainAt c.addr = .ok l.owner ∧ c.threadSafe = false ∧
      PInv Ω cl (s.setRegs R) G ∧ l.ptr ≠ 0 := by
  obtain ⟨H, L, P, B, K⟩ := I
  obtain ⟨g, k, hg, hk, hq, hp, hfit, _⟩ := K.live l hl
  obtain ⟨c, hc, T⟩ := B.getH hg
  obtain ⟨d, hd, d1, d2⟩ := seg_of_has T.ch.wf hk.1
  have hdm : d ∈ shapes H := mem_shapes.2 ⟨_, g, hg, hd⟩
  have hu := T.ch.wf.uptr_ge k
  have hr := T.ch.room k hk
  have l1 := B.resD _ B.low d (List.mem_append_left _ hdm) MB2 (Nat.zero_le _) (by simp only; omega)
  have l2 := B.resD _ B.low d (List.mem_append_left _ hdm) d.1 (Nat.zero_le _)
  simp only at l2
  obtain ⟨R, e, J⟩ := B.reg.lookup (List.mem_append_left _ hdm) (p := l.ptr) (by omega) (by omega) (by omega)
  refine ⟨R, d.1, c, e, by omega, ?_, by have := T.pos; omega, hc, PBase.chainAt (B.setRegs J) hc, T.flag.1, ⟨H, L, P, B.setRegs J, K⟩,
    by omega⟩
  rw [T.ch.own d hd, Nat.mod_eq_of_lt T.lt]

theorem del_live {G : PSpec} {t p : Nat} {l : PBlock} : l ∈ (G.del t p).live ↔ l ∈ G.live ∧ l.ptr ≠ p := by
  simp [PSpec.del]

/-- Freeing a block: the blocks of the client. -/
theorem del_nodup {G : PSpec} {t p : Nat} (h : (G.live ++ G.pend).Pairwise (fun l l' => l.ptr ≠ l'.ptr)) :
    ((G.del t p).live ++ (G.del t p).pend).Pairwise (fun l l' => l.ptr ≠ l'.ptr) := by
  obtain ⟨h1, h2, h3⟩ := List.pairwise_append.1 h
  unfold PSpec.del
  simp only
  rw [← List.append_assoc, List.pairwise_append]
  refine ⟨?_, h2, ?_⟩
  · rw [List.pairwise_append]
    refine ⟨h1.sublist List.filter_sublist, h1.sublist List.filter_sublist, ?_⟩
    intro a ha b hb
    simp only [List.mem_filter, decide_eq_true_eq] at ha hb
    rw [hb.2.1]; exact ha.2
  · intro a ha b hb
    refine h3 a ?_ b hb
    rcases List.mem_append.1 ha with ha | ha
    · exact (List.mem_filter.1 ha).1
    · exact (List.mem_filter.1 ha).1

/-- A thread frees one of its blocks. -/
theorem free_eff {C : Config} {cl : Prop} {s : PS} {G : PSpec} (I : PInv Ω cl s G) {l : PBlock} {c : Chain} (hl : l ∈ G.live)
    (hc : s.chs[l.owner]? = some c) :
    ∃ u, chainFree (lightSource C) C ⟨s.w, c⟩ l.ptr = .ok u ∧ PInv Ω cl (s.put l.owner u) (G.del l.owner l.ptr) ∧
      Keeps s (s.put l.owner u) G (fun m => m.ptr ≠ l.ptr) := by
  obtain ⟨H, L, P, B, K⟩ := I
  obtain ⟨g, k, hg, hk, hq, hp, hfit, _⟩ := K.live l hl
  have T := B.th _ _ _ hc hg
  have J := B.at hc hg
  obtain ⟨u, A', L', e, R⟩ := sfree_ok (C := C) J hk
  have S := R.step J
  have q' : QAt u A' g.Q := S.queue J T.q (fun j hj e => hq (e ▸ hj)) (by rw [R.chain]; exact ⟨rfl, rfl⟩)
  refine ⟨u, by rw [← hp]; exact e, ⟨_, L', P, B.step hc hg S q', ?_⟩,
    B.keeps K hg S (fun m _ hz _ j _ _ he e => hz (by rw [← he, e, hp]))⟩
  have hpend : (G.del l.owner l.ptr).pend = G.pend := by
    unfold PSpec.del
    simp only
    rw [List.filter_eq_nil_iff.2, List.nil_append]
    intro m hm h
    simp only [decide_eq_true_eq] at h
    have := ptr_eq_of_nodup (List.pairwise_append.1 K.nodup).1 hm hl h.1
    exact h.2 (by rw [this])
  have hg' := set_get (a := (⟨g.pb, A', g.Q⟩ : Gh)) hg
  constructor
  · intro m hm
    obtain ⟨hm, hne⟩ := del_live.1 hm
    obtain ⟨gi, j, hi, hj, hjq, hjp, h⟩ := K.live m hm
    by_cases ht : m.owner = l.owner
    · rw [ht] at hi ⊢
      obtain rfl : gi = g := Option.some.inj (hi.symm.trans hg)
      exact ⟨_, j, hg', (R.used j (fun e => hne (by rw [← hjp, e, hp]))).2 hj, hjq, hjp, h⟩
    · exact ⟨gi, j, by rw [List.getElem?_set_ne (Ne.symm ht)]; exact hi, hj, hjq, hjp, h⟩
  · intro m hm
    rw [hpend] at hm
    obtain ⟨gi, j, hi, hj, h⟩ := K.pend m hm
    by_cases ht : m.owner = l.owner
    · rw [ht] at hi ⊢
      obtain rfl : gi = g := Option.some.inj (hi.symm.trans hg)
      exact ⟨_, j, hg', hj, h⟩
    · exact ⟨gi, j, by rw [List.getElem?_set_ne (Ne.symm ht)]; exact hi, hj, h⟩
  · exact del_nodup K.nodup
  · intro h j gj hj
    have hkeep : ∀ m ∈ G.live ++ G.pend, m.ptr ≠ l.ptr → m ∈ (G.del l.owner l.ptr).live ++ (G.del l.owner l.ptr).pend := by
      intro m hm hne
      rcases List.mem_append.1 hm with hm | hm
      · exact List.mem_append_left _ (del_live.2 ⟨hm, hne⟩)
      · exact List.mem_append_right _ (by rw [hpend]; exact hm)
    rcases get_set hj with ⟨e, rfl⟩ | ⟨hne, hj⟩
    · obtain ⟨b1, b2⟩ := K.clean h _ g hg
      have hnl := (b2 k hk).1
      refine ⟨R.busy T.flag.2 b1, fun x hx => ?_⟩
      have hxk : x ≠ k := fun e => R.gone hnl (e ▸ hx)
      have hxA := (R.used x hxk).1 hx
      obtain ⟨h3, m, hm, h4, h5⟩ := b2 x hxA
      refine ⟨h3, m, hkeep m hm ?_, by rw [e]; exact h4, h5⟩
      intro he
      exact hxk (B.inj hg hg hxA hk (by rw [← h5, he, hp])).2
    · obtain ⟨b1, b2⟩ := K.clean h j gj hj
      refine ⟨b1, fun x hx => ?_⟩
      obtain ⟨h3, m, hm, h4, h5⟩ := b2 x hx
      refine ⟨h3, m, hkeep m hm ?_, h4, h5⟩
      intro he
      exact hne (B.inj hj hg hx hk (by rw [← h5, he, hp])).1

/-- A thread frees a block of another thread. -/
theorem register_eff {cl : Prop} {s : PS} {G : PSpec} (I : PInv Ω cl s G) {l : PBlock} {c : Chain} {t : Nat}
    (hl : l ∈ G.live) (hc : s.chs[l.owner]? = some c) (hne : l.owner ≠ t) :
    ∃ u, rfqRegister ⟨s.w, c⟩ l.ptr = .ok u ∧ PInv Ω cl (s.put l.owner u) (G.del t l.ptr) ∧
      Keeps s (s.put l.owner u) G (fun m => m.ptr ≠ l.ptr) := by
  obtain ⟨H, L, P, B, K⟩ := I
  obtain ⟨g, k, hg, hk, hq, hp, hfit, hpl⟩ := K.live l hl
  have T := B.th _ _ _ hc hg
  have J := B.at hc hg
  obtain ⟨u, e, S, q', _⟩ := rfqRegister_ok J T.q hk hq
  refine ⟨u, by rw [← hp]; exact e, ⟨_, L, P, B.step hc hg S q', ?_⟩,
    B.keeps K hg S (fun m _ hz _ j _ hjq he => ⟨fun e => hz (by rw [← he, e, hp]), hjq⟩)⟩
  have hg' := set_get (a := (⟨g.pb, g.A, g.Q ++ [k]⟩ : Gh)) hg
  have hpend : ∀ m, m ∈ (G.del t l.ptr).pend ↔ m = l ∨ m ∈ G.pend := by
    intro m
    unfold PSpec.del
    simp only [List.mem_append, List.mem_filter, decide_eq_true_eq]
    constructor
    · rintro (⟨h1, h2, h3⟩ | h)
      · exact Or.inl (ptr_eq_of_nodup (List.pairwise_append.1 K.nodup).1 h1 hl h2)
      · exact Or.inr h
    · rintro (rfl | h)
      · exact Or.inl ⟨hl, rfl, hne⟩
      · exact Or.inr h
  constructor
  · intro m hm
    obtain ⟨hm, hne'⟩ := del_live.1 hm
    obtain ⟨gi, j, hi, hj, hjq, hjp, h⟩ := K.live m hm
    by_cases ht : m.owner = l.owner
    · rw [ht] at hi ⊢
      obtain rfl : gi = g := Option.some.inj (hi.symm.trans hg)
      refine ⟨_, j, hg', hj, ?_, hjp, h⟩
      simp only [List.mem_append, List.mem_singleton, not_or]
      exact ⟨hjq, fun e => hne' (by rw [← hjp, e, hp])⟩
    · exact ⟨gi, j, by rw [List.getElem?_set_ne (Ne.symm ht)]; exact hi, hj, hjq, hjp, h⟩
  · intro m hm
    rcases (hpend m).1 hm with rfl | hm
    · exact ⟨_, k, hg', by simp, hp, hfit⟩
    · obtain ⟨gi, j, hi, hj, h⟩ := K.pend m hm
      by_cases ht : m.owner = l.owner
      · rw [ht] at hi ⊢
        obtain rfl : gi = g := Option.some.inj (hi.symm.trans hg)
        exact ⟨_, j, hg', by simp [hj], h⟩
      · exact ⟨gi, j, by rw [List.getElem?_set_ne (Ne.symm ht)]; exact hi, hj, h⟩
  · exact del_nodup K.nodup
  · intro h j gj hj
    have hkeep : ∀ m ∈ G.live ++ G.pend, m ∈ (G.del t l.ptr).live ++ (G.del t l.ptr).pend := by
      intro m hm
      rcases List.mem_append.1 hm with hm | hm
      · by_cases hmp : m.ptr = l.ptr
        · exact List.mem_append_right _ ((hpend m).2 (Or.inl
            (ptr_eq_of_nodup (List.pairwise_append.1 K.nodup).1 hm hl hmp)))
        · exact List.mem_append_left _ (del_live.2 ⟨hm, hmp⟩)
      · exact List.mem_append_right _ ((hpend m).2 (Or.inr hm))
    have hgj : ∃ gj', H[j]? = some gj' ∧ gj'.A = gj.A := by
      rcases get_set hj with ⟨rfl, rfl⟩ | ⟨_, hj⟩
      · exact ⟨g, hg, rfl⟩
      · exact ⟨gj, hj, rfl⟩
    obtain ⟨gj', hj', eA⟩ := hgj
    obtain ⟨b1, b2⟩ := K.clean h j gj' hj'
    rw [eA] at b1 b2
    refine ⟨b1, fun x hx => ?_⟩
    obtain ⟨h3, m, hm, h4, h5⟩ := b2 x hx
    exact ⟨h3, m, hkeep m hm, h4, h5⟩

theorem PS.put_mem {s : PS} {t : Nat} {c : Chain} (hc : s.chs[t]? = some c) (m : Mem) :
    s.put t (CS.setMem ⟨s.w, c⟩ m) = s.setMem m := by
  unfold PS.put PS.setMem CS.setMem
  congr 1
  simp only
  obtain ⟨h, rfl⟩ := List.getElem?_eq_some_iff.1 hc
  exact List.set_getElem_self h

theorem PS.put_self {s : PS} {t : Nat} {c : Chain} (hc : s.chs[t]? = some c) : s.put t ⟨s.w, c⟩ = s := by
  have := PS.put_mem hc s.w.mem
  exact this

theorem set_self {α : Type} {l : List α} {t : Nat} {a : α} (h : l[t]? = some a) : l.set t a = l := by
  obtain ⟨h', rfl⟩ := List.getElem?_eq_some_iff.1 h
  exact List.set_getElem_self h'

/-- Stores in a live block. -/
theorem store_eff {cl : Prop} {s : PS} {G : PSpec} (I : PInv Ω cl s G) {l : PBlock} {m' : Mem} (hl : l ∈ G.live)
    (hm : ∀ x, ¬ l.Byte x → m' x = s.w.mem x) :
    PInv Ω cl (s.setMem m') G ∧ Keeps s (s.setMem m') G (fun m => m.ptr ≠ l.ptr) := by
  obtain ⟨H, L, P, B, K⟩ := I
  obtain ⟨g, k, hg, hk, hq, hp, hfit, _⟩ := K.live l hl
  obtain ⟨c, hc, T⟩ := B.getH hg
  have J := B.at hc hg
  have S := J.store hk (m' := m') (fun x hx => hm x (by unfold PBlock.Byte; omega))
  have q' : QAt (CS.setMem ⟨s.w, c⟩ m') g.A g.Q := S.queue J T.q (fun j hj e => hq (e ▸ hj)) ⟨rfl, rfl⟩
  have B' := B.step hc hg S q'
  have hset : H.set l.owner ⟨g.pb, g.A, g.Q⟩ = H := set_self hg
  rw [hset, PS.put_mem hc] at B'
  refine ⟨⟨H, L, P, B', K⟩, ?_⟩
  have := B.keeps K hg S (Z := fun m => m.ptr ≠ l.ptr) (fun m _ hz _ j _ _ he e => hz (by rw [← he, e, hp]))
  rwa [PS.put_mem hc] at this

/-- A thread resizes one of its blocks. -/
theorem realloc_eff {C : Config} {cl : Prop} {s : PS} {G : PSpec} (I : PInv Ω cl s G) {l : PBlock} {c : Chain} {hook n N : Nat}
    (hl : l ∈ G.live) (hc : s.chs[l.owner]? = some c) (hf : C.reallocFactor ≠ 0) (hb : GoodBound hook) (hn : n ≠ 0)
    (hN : alignedSize hook n = N) (hsz : PSize N) (hcl : cl → CleanSize N) (hsafe : l.plain = true ∨ n ≤ l.len) :
    (¬ s.w.src.os.Fresh (s.w.src.os.ans s.w.src.os.k) (N + 80 + MB2) ∧
      chainRealloc (lightSource C) C hook ⟨s.w, c⟩ l.ptr n = .ub) ∨
    (chainRealloc (lightSource C) C hook ⟨s.w, c⟩ l.ptr n = .ok (⟨s.w, c⟩, l.ptr) ∧
      PInv Ω cl s { G with live := G.live.map (fun m => if m.ptr = l.ptr then { m with len := n } else m) }) ∨
    ∃ u r, chainRealloc (lightSource C) C hook ⟨s.w, c⟩ l.ptr n = .ok (u, r) ∧ r ≠ 0 ∧ r ≠ l.ptr ∧
      (1 < hook → hook ∣ r) ∧ (hook ≤ 1 → 16 ∣ r) ∧
      PInv Ω cl (s.put l.owner u) ((G.del l.owner l.ptr).add l.owner r n (decide (hook ≤ 1))) ∧
      Keeps s (s.put l.owner u) G (fun m => m.ptr ≠ l.ptr) ∧
      ∀ i, i < min l.len n → u.w.mem (r + i) = s.w.mem (l.ptr + i) := by
  obtain ⟨H, L, P, B, K⟩ := I
  obtain ⟨g, k, hg, hk, hq, hp, hfit, hpl⟩ := K.live l hl
  have T := B.th _ _ _ hc hg
  have J := B.at hc hg
  have W := T.ch.wf
  subst hN
  have hu := W.uptr_ge k
  have h16 : l.plain = true → k.uptr = k.addr + 16 := by
    intro h
    simp only [Ck.uptr, Ck.off, hpl h]
  have hlen : l.len ≤ k.size - 16 := by omega
  have hkw := (W.has_wf hk.1).ge
  have hrs : ReallocSafe k n := by
    unfold ReallocSafe
    rcases hsafe with h | h
    · rw [h16 h]; omega
    · omega
  rw [← hp]
  rcases srealloc_ok (C := C) J hk hn hf hb hsz.1 hsz.fits hrs with ⟨hkeep, e⟩ | ⟨⟨j, hj, hr⟩, e⟩ | ⟨u, d, A', L', e, R⟩
  · right; left
    refine ⟨e, H, L, P, B, ?_⟩
    have hnk : n ≤ k.size - 16 := hkeep.1
    constructor
    · intro m hm
      obtain ⟨m0, hm0, rfl⟩ := List.mem_map.1 hm
      obtain ⟨gi, j, hi, hj, hjq, hjp, hjf, h⟩ := K.live m0 hm0
      by_cases hmp : m0.ptr = k.uptr
      · rw [if_pos hmp]
        have := ptr_eq_of_nodup (List.pairwise_append.1 K.nodup).1 hm0 hl (hmp.trans hp)
        subst this
        obtain ⟨_, rfl⟩ := B.inj hi hg hj hk (hjp.trans hp.symm)
        refine ⟨gi, j, hi, hj, hjq, hjp, ?_, h⟩
        simp only
        rcases hsafe with h' | h'
        · have := h16 h'; omega
        · omega
      · rw [if_neg hmp]
        exact ⟨gi, j, hi, hj, hjq, hjp, hjf, h⟩
    · exact K.pend
    · rw [List.pairwise_append, List.pairwise_map]
      obtain ⟨h1, h2, h3⟩ := List.pairwise_append.1 K.nodup
      refine ⟨?_, h2, ?_⟩
      · refine h1.imp (fun {a b} h => ?_)
        split <;> split <;> exact h
      · intro a ha b hb
        obtain ⟨a0, ha0, rfl⟩ := List.mem_map.1 ha
        have := h3 a0 ha0 b hb
        split <;> exact this
    · intro h j gj hj
      obtain ⟨b1, b2⟩ := K.clean h j gj hj
      refine ⟨b1, fun x hx => ?_⟩
      obtain ⟨h3, m, hm, h4, h5⟩ := b2 x hx
      rcases List.mem_append.1 hm with hm | hm
      · refine ⟨h3, _, List.mem_append_left _ (List.mem_map.2 ⟨m, hm, rfl⟩), ?_, ?_⟩
        · split <;> exact h4
        · split <;> exact h5
      · exact ⟨h3, m, List.mem_append_right _ hm, h4, h5⟩
  · exact Or.inl ⟨hr.fresh hj, e⟩
  right; right
  have S := R.step
  have q' : QAt u A' g.Q := S.queue J T.q (fun j hj e => hq (e ▸ hj)) R.queue
  have B' := B.step hc hg S q'
  have hg' := set_get (a := (⟨g.pb, A', g.Q⟩ : Gh)) hg
  have hroom := T.ch.room k hk
  have hroomd := S.inv.ch.room d R.usedD
  have hud := S.inv.ch.wf.uptr_ge d
  have hdne : d.uptr ≠ k.uptr := by
    have := R.disj
    omega
  have hdQ : d ∉ g.Q := fun h => R.fresh (T.q.used d h)
  have hpend : (G.del l.owner k.uptr).pend = G.pend := by
    unfold PSpec.del
    simp only
    rw [List.filter_eq_nil_iff.2, List.nil_append]
    intro m hm h
    simp only [decide_eq_true_eq] at h
    have := ptr_eq_of_nodup (List.pairwise_append.1 K.nodup).1 hm hl (h.1.trans hp)
    exact h.2 (by rw [this])
  have hold : ∀ m ∈ (G.del l.owner k.uptr).live, ∃ gi j, (H.set l.owner ⟨g.pb, A', g.Q⟩)[m.owner]? = some gi ∧
      gi.A.Used j ∧ j ∉ gi.Q ∧ j.uptr = m.ptr ∧ m.ptr + m.len ≤ j.addr + j.size ∧ (m.plain = true → j.st = .used none) := by
    intro m hm
    obtain ⟨hm, hne⟩ := del_live.1 hm
    obtain ⟨gi, j, hi, hj, hjq, hjp, h⟩ := K.live m hm
    by_cases ht : m.owner = l.owner
    · rw [ht] at hi ⊢
      obtain rfl : gi = g := Option.some.inj (hi.symm.trans hg)
      exact ⟨_, j, hg', S.keep j hj (fun e => hne (by rw [← hjp, e])), hjq, hjp, h⟩
    · exact ⟨gi, j, by rw [List.getElem?_set_ne (Ne.symm ht)]; exact hi, hj, hjq, hjp, h⟩
  have hpd : ∀ m ∈ (G.del l.owner k.uptr).pend, ∃ gi j, (H.set l.owner ⟨g.pb, A', g.Q⟩)[m.owner]? = some gi ∧
      j ∈ gi.Q ∧ j.uptr = m.ptr ∧ m.ptr + m.len ≤ j.addr + j.size := by
    intro m hm
    rw [hpend] at hm
    obtain ⟨gi, j, hi, hj, h⟩ := K.pend m hm
    by_cases ht : m.owner = l.owner
    · rw [ht] at hi ⊢
      obtain rfl : gi = g := Option.some.inj (hi.symm.trans hg)
      exact ⟨_, j, hg', hj, h⟩
    · exact ⟨gi, j, by rw [List.getElem?_set_ne (Ne.symm ht)]; exact hi, hj, h⟩
  have hnew : ∀ m ∈ (G.del l.owner k.uptr).live ++ (G.del l.owner k.uptr).pend, d.uptr ≠ m.ptr := by
    intro m hm he
    rcases List.mem_append.1 hm with hm | hm
    · obtain ⟨gi, j, hi, hj, hjq, hjp, _⟩ := hold m hm
      obtain ⟨e1, rfl⟩ := B'.inj hg' hi R.usedD hj (by rw [he, hjp])
      obtain ⟨hm, hne⟩ := del_live.1 hm
      obtain ⟨gi', j', hi', hj', _, hjp', _⟩ := K.live m hm
      rw [← e1] at hi'
      obtain rfl : gi' = g := Option.some.inj (hi'.symm.trans hg)
      have hk' : A'.Used j' := S.keep j' hj' (fun e => hne (by rw [← hjp', e]))
      obtain ⟨_, rfl⟩ := B'.inj hg' hg' R.usedD hk' (by rw [he, hjp'])
      exact R.fresh hj'
    · obtain ⟨gi, j, hi, hj, hjp, _⟩ := hpd m hm
      obtain ⟨ci, _, Ti⟩ := B'.getH hi
      obtain ⟨e1, rfl⟩ := B'.inj hg' hi R.usedD (Ti.q.used j hj) (by rw [he, hjp])
      rw [← e1, hg'] at hi
      obtain rfl := Option.some.inj hi
      exact hdQ hj
  refine ⟨u, d.uptr, e, R.ne, hdne, R.align, R.align16, ⟨_, L', P, B', ?_⟩,
    B.keeps K hg S (fun m _ hz _ j _ _ he e => hz (by rw [← he, e])), fun i hi => R.copy i (by omega)⟩
  have hadd : (G.del l.owner k.uptr).add l.owner d.uptr n (decide (hook ≤ 1)) =
      { G.del l.owner k.uptr with live := ⟨l.owner, d.uptr, n, decide (hook ≤ 1)⟩ :: (G.del l.owner k.uptr).live } := by
    unfold PSpec.add; rw [if_neg R.ne]
  rw [hadd]
  constructor
  · intro m hm
    rcases List.mem_cons.1 hm with rfl | hm
    · exact ⟨_, d, hg', R.usedD, hdQ, rfl, R.fit, fun h => R.noPad (by simpa using h)⟩
    · exact hold m hm
  · exact hpd
  · exact List.pairwise_cons.2 ⟨hnew, del_nodup K.nodup⟩
  · intro h j gj hj
    have hkeep : ∀ m ∈ G.live ++ G.pend, m.ptr ≠ k.uptr →
        m ∈ (G.del l.owner k.uptr).live ++ (G.del l.owner k.uptr).pend := by
      intro m hm hne
      rcases List.mem_append.1 hm with hm | hm
      · exact List.mem_append_left _ (del_live.2 ⟨hm, hne⟩)
      · exact List.mem_append_right _ (by rw [hpend]; exact hm)
    rcases get_set hj with ⟨ej, rfl⟩ | ⟨hne, hj⟩
    · obtain ⟨b1, b2⟩ := K.clean h _ g hg
      have hnl := (b2 k hk).1
      refine ⟨R.busy T.flag.2 b1, fun x hx => ?_⟩
      rcases R.back x hx with rfl | ⟨hxA, hxl⟩
      · exact ⟨R.noLeak ((hcl h).cut hsz), _, List.mem_cons_self, ej.symm, rfl⟩
      · have hxk : x ≠ k := fun e => hnl (hxl e)
        obtain ⟨h3, m, hm, h4, h5⟩ := b2 x hxA
        refine ⟨h3, m, List.mem_cons_of_mem _ (hkeep m hm ?_), by rw [ej]; exact h4, h5⟩
        intro he
        exact hxk (B.inj hg hg hxA hk (by rw [← h5, he])).2
    · obtain ⟨b1, b2⟩ := K.clean h j gj hj
      refine ⟨b1, fun x hx => ?_⟩
      obtain ⟨h3, m, hm, h4, h5⟩ := b2 x hx
      refine ⟨h3, m, List.mem_cons_of_mem _ (hkeep m hm ?_), h4, h5⟩
      intro he
      exact hne (B.inj hj hg hx hk (by rw [← h5, he])).1

/-- The environment after the creation of a thread, whose structure is the `z` bytes at `a`. -/
def Env.spawn (Ω : Env) (a z pb : Nat) : Env :=
  { Ω with mine := fun x => Ω.mine x ∧ (x < a ∨ a + z ≤ x), ths := Ω.ths ++ [(a, pb)] }

/-- A new thread, whose structure is in memory that is not used or that belongs to the environment. -/
theorem spawn_core {cl : Prop} {s : PS} {G : PSpec} (I : PInv Ω cl s G) {a z pb : Nat} (h0 : 0 < a) (h1 : a ≤ pb)
    (h2 : pb + 1536 ≤ a + z) (h3 : a + z < W64)
    (h4 : ∀ x, a ≤ x → x < a + z → s.w.src.os.used x = false ∨ Ω.mine x)
    (h5 : ∀ d ∈ Ω.blocs, a + z ≤ d.1 ∨ d.1 + 16 ≤ a) :
    ∃ s', posixSpawn s a z pb = .ok s' ∧ PInv (Ω.spawn a z pb) cl s' G ∧ Keeps s s' G (fun _ => True) ∧
      (∀ x, x < pb ∨ pb + 1536 ≤ x → s'.w.mem x = s.w.mem x) ∧ s'.w.regs = s.w.regs ∧
      s'.w.src = (s.reserve a z).w.src ∧ s'.chs.length = s.chs.length + 1 := by
  obtain ⟨H, L, P, B, K⟩ := I
  have hin : ∀ x, a ≤ x → x < a + z → (∀ d ∈ shapes H ++ L, x < d.1 ∨ d.1 + d.2 ≤ x) ∧
      (∀ (t : Nat) (g : Gh), H[t]? = some g → ¬ PoolAt g.pb x) ∧
      ∀ (t : Nat) (c : Chain), s.chs[t]? = some c → c.addr ≠ x := by
    intro x g1 g2
    rcases h4 x g1 g2 with h | h
    · refine ⟨fun d hd => ?_, fun t g hg hp => ?_, fun t c hc e => ?_⟩
      · by_contra hc
        have := (B.lin.good d hd).used x (by omega) (by omega)
        rw [h] at this; cases this
      · obtain ⟨c, hc, T⟩ := B.getH hg
        have := B.resU _ T.pool x hp.1 hp.2
        rw [h] at this; cases this
      · obtain ⟨c', g, hc', hg, T⟩ := B.get (List.getElem?_eq_some_iff.1 hc).1
        obtain rfl : c' = c := Option.some.inj (hc'.symm.trans hc)
        have := B.resU _ T.addr c'.addr (Nat.le_refl _) (by simp only; omega)
        rw [e, h] at this; cases this
    · obtain ⟨d, hd, d1, d2⟩ := B.env.area x h
      exact ⟨fun e he => B.resD d hd e he x d1 d2, B.env.pool x h, B.env.addr x h⟩
  obtain ⟨u, e, Iu, eR, eS, e1, e2, e3, e4, e5, e6, e7, e8, e9, e10, fr⟩ :=
    chainBaseInit_ok (s.reserve a z).w (addr := a) (pb := pb) false false false (by omega) (by omega)
  have eu : userInit (s.reserve a z).w a pb 0 0 false false false = .ok { u with c := { u.c with hasSrc := false } } := by
    unfold userInit
    rw [e, Outcome.ok_bind, if_neg (by simp), Outcome.pure_eq, Outcome.ok_bind]
    rfl
  have hused : ∀ x, s.w.src.os.used x = true → u.w.src.os.used x = true := by
    intro x hx
    rw [eS]
    show (if a ≤ x ∧ x < a + z then true else s.w.src.os.used x) = true
    split
    · rfl
    · exact hx
  have hnew : ∀ x, a ≤ x → x < a + z → u.w.src.os.used x = true := by
    intro x g1 g2
    rw [eS]
    show (if a ≤ x ∧ x < a + z then true else s.w.src.os.used x) = true
    rw [if_pos ⟨g1, g2⟩]
  have hmem : ∀ x, x < pb ∨ pb + 1536 ≤ x → u.w.mem x = s.w.mem x := by
    intro x hx
    refine fr x (fun hp => ?_)
    unfold PoolAt at hp
    omega
  have hsegU : ∀ (t : Nat) (g : Gh), H[t]? = some g → ∀ x, g.A.SegAt x → x < pb ∨ pb + 1536 ≤ x := by
    intro t g hg x hx
    obtain ⟨d, hd, d1, d2⟩ := segAt_shape.1 hx
    by_contra hc
    have := (hin x (by omega) (by omega)).1 d (List.mem_append_left _ (mem_shapes.2 ⟨t, g, hg, hd⟩))
    omega
  have hblocU : ∀ d ∈ shapes H ++ L, ∀ x, d.1 ≤ x → x < d.1 + d.2 → x < pb ∨ pb + 1536 ≤ x := by
    intro d hd x g1 g2
    by_contra hc
    have := (hin x (by omega) (by omega)).1 d hd
    omega
  have hhdr : ∀ d ∈ shapes H, hSize u.w.mem d.1 = hSize s.w.mem d.1 := by
    intro d hd
    have hg := B.lin.good d (List.mem_append_left _ hd)
    have := hg.pos; have := hg.mul
    unfold hSize
    exact readLE_congr (fun x g1 g2 => hmem x (hblocU d (List.mem_append_left _ hd) x g1 (by omega)))
  refine ⟨⟨u.w, s.chs ++ [{ u.c with hasSrc := true }]⟩, ?_, ⟨H ++ [⟨pb, emptyHeap, []⟩], L,
    P ++ [(a, 1), (pb, 1536)], ?_, ?_⟩, ?_, hmem, eR, eS, by simp⟩
  · unfold posixSpawn
    simp only
    rw [eu, Outcome.ok_bind, Outcome.pure_eq]
    rfl
  · have hsh : shapes (H ++ [⟨pb, emptyHeap, []⟩]) = shapes H := by
      unfold shapes; simp [emptyHeap, AHeap.shape]
    have hget : ∀ {α : Type} {l : List α} {b y : α} {j : Nat}, (l ++ [b])[j]? = some y →
        l[j]? = some y ∨ (j = l.length ∧ y = b) := by
      intro α l b y j h
      rcases Nat.lt_trichotomy j l.length with hj | hj | hj
      · rw [List.getElem?_append_left hj] at h; exact Or.inl h
      · subst hj; simp at h; exact Or.inr ⟨rfl, h.symm⟩
      · rw [List.getElem?_eq_none (by simp; omega)] at h; cases h
    have hP : ∀ d ∈ (⟨P ++ [(a, 1), (pb, 1536)], Ω.spawn a z pb⟩ : Res), d ∈ (⟨P, Ω⟩ : Res) ∨ (a ≤ d.1 ∧ d.1 + d.2 ≤ a + z) := by
      intro d hd
      simp only [Res.mem, List.mem_append, List.mem_cons, List.not_mem_nil, or_false] at hd
      rcases hd with h | rfl | rfl
      · exact Or.inl h
      · exact Or.inr ⟨by simp only; omega, by simp only; omega⟩
      · exact Or.inr ⟨by simp only; omega, by simp only; omega⟩
    have hold : ∀ (j : Nat) (c : Chain) (g : Gh), s.chs[j]? = some c → H[j]? = some g →
        (c.addr < a ∨ a + z ≤ c.addr) ∧ (g.pb + 1536 ≤ pb ∨ pb + 1536 ≤ g.pb) := by
      intro j c g hc hg
      constructor
      · by_contra hh
        exact (hin c.addr (by omega) (by omega)).2.2 j c hc rfl
      · by_contra hh
        exact (hin (max pb g.pb) (by omega) (by omega)).2.1 j g hg ⟨by omega, by omega⟩
    constructor
    · simp [B.len]
    · intro j c g hc hg
      rcases hget hc with hc | ⟨ej, rfl⟩ <;> rcases hget hg with hg | ⟨ej', rfl⟩
      · have T := B.th j c g hc hg
        refine ⟨T.ch.congr ?_, ⟨T.q.list.congr ?_, T.q.tail, T.q.used, T.q.nodup⟩, T.flag, T.pos, T.lt,
          List.mem_append_left _ T.pool, List.mem_append_left _ T.addr⟩
        · rintro x (hx | hx)
          · refine hmem x ?_
            by_contra hc
            exact (hin x (by omega) (by omega)).2.1 j g hg hx
          · exact hmem x (hsegU j g hg x hx)
        · intro k hk x g1 g2
          have hu := T.q.used k hk
          obtain ⟨d, hd, d1, d2⟩ := seg_of_has T.ch.wf hu.1
          have := T.ch.room k hu
          have := T.ch.wf.uptr_ge k
          exact hmem x (hsegU j g hg x (segAt_shape.2 ⟨d, hd, by omega, by omega⟩))
      · have := (List.getElem?_eq_some_iff.1 hc).1
        have := B.len; omega
      · have := (List.getElem?_eq_some_iff.1 hg).1
        have := B.len; omega
      · refine ⟨⟨emptyHeap_wf (show 0 < pb by omega) (show pb + 1536 < W64 by omega), Iu.pool, Iu.mem, Iu.dead, Iu.lock, e6, rfl, e8, e4, e7,
          by simp [emptyHeap, AHeap.shape], by simp [emptyHeap, AHeap.shape], fun _ => ?_, ?_⟩, ⟨e9, e10, by simp, by simp⟩,
          ⟨e2, e3⟩, ?_, ?_, by simp [Res.mem], ?_⟩
        · intro g hg; simp [emptyHeap] at hg
        · rintro k ⟨⟨g, hg, _⟩, _⟩; simp [emptyHeap] at hg
        · show 0 < u.c.addr; rw [e1]; omega
        · show u.c.addr < W64; rw [e1]; omega
        · show (u.c.addr, 1) ∈ _; rw [e1]; simp [Res.mem]
    · rw [hsh]
      have := B.lin
      have hsrc : u.w.src = (s.reserve a z).w.src := eS
      refine ⟨?_, ?_, ?_, ?_, ?_, this.apart, fun d hd => by rw [hhdr d hd]; exact this.hdr d hd⟩
      · rw [hsrc]
        refine this.cache.congr (fun d hd => ?_)
        have hg := this.good d (List.mem_append_right _ hd)
        have := hg.pos; have := hg.mul
        exact fun x g1 g2 => hmem x (hblocU d (List.mem_append_right _ hd) x g1 (by omega))
      · rw [hsrc]; exact this.lock
      · rw [hsrc]; exact this.cnt
      · rw [hsrc]; exact this.size
      · intro d hd
        have hg := this.good d hd
        exact ⟨hg.nz, hg.page, hg.pos, hg.mul, hg.high, fun x g1 g2 => hused x (hg.used x g1 g2)⟩
    · rw [hsh]
      show RegInv u.w.mem u.w.regs _
      rw [eR]
      refine B.reg.congrMem (fun d hd => ?_)
      rcases List.mem_append.1 hd with hd | hd
      · exact hhdr d hd
      · have := h5 d hd
        exact readLE_congr (fun x g1 g2 => hmem x (by omega))
    · exact List.mem_append_left _ B.low
    · intro d hd x g1 g2
      rcases hP d hd with h | h
      · exact hused x (B.resU d h x g1 g2)
      · exact hnew x (by omega) (by omega)
    · rw [hsh]
      intro d hd x' he x g1 g2
      rcases hP d hd with h | h
      · exact B.resD d h x' he x g1 g2
      · exact (hin x (by omega) (by omega)).1 x' he
    · intro i j ci cj hi hj he
      rcases hget hi with hi | ⟨ei, rfl⟩ <;> rcases hget hj with hj | ⟨ej, rfl⟩
      · exact B.addrs i j ci cj hi hj he
      · obtain ⟨c', g, hc', hg, _⟩ := B.get (List.getElem?_eq_some_iff.1 hi).1
        obtain rfl : c' = ci := Option.some.inj (hc'.symm.trans hi)
        have := (hold i _ g hi hg).1
        have he : c'.addr = u.c.addr := he
        rw [e1] at he
        omega
      · obtain ⟨c', g, hc', hg, _⟩ := B.get (List.getElem?_eq_some_iff.1 hj).1
        obtain rfl : c' = cj := Option.some.inj (hc'.symm.trans hj)
        have := (hold j _ g hj hg).1
        have he : u.c.addr = c'.addr := he
        rw [e1] at he
        omega
      · omega
    · intro i j gi gj hi hj hne
      rcases hget hi with hi | ⟨ei, rfl⟩ <;> rcases hget hj with hj | ⟨ej, rfl⟩
      · exact B.pools i j gi gj hi hj hne
      · obtain ⟨c', hc', _⟩ := B.getH hi
        exact (hold i _ _ hc' hi).2
      · obtain ⟨c', hc', _⟩ := B.getH hj
        exact (hold j _ _ hc' hj).2.symm
      · omega
    · intro d hd
      refine ⟨List.mem_append_left _ (B.ext d hd).1, fun t g hg => ?_⟩
      rcases hget hg with hg | ⟨_, rfl⟩
      · exact (B.ext d hd).2 t g hg
      · have := h5 d hd
        simp only
        omega
    · have E := B.env
      refine ⟨fun x hx => ?_, fun x hx t g hg => ?_, fun x hx t c hc => ?_, fun x hx => ?_, ?_, ?_⟩
      · obtain ⟨d, hd, h⟩ := E.area x hx.1
        exact ⟨d, List.mem_append_left _ hd, h⟩
      · rcases hget hg with hg | ⟨_, rfl⟩
        · exact E.pool x hx.1 t g hg
        · have := hx.2
          unfold PoolAt
          simp only
          omega
      · rcases hget hc with hc | ⟨_, rfl⟩
        · exact E.addr x hx.1 t c hc
        · have := hx.2
          show u.c.addr ≠ x
          rw [e1]
          omega
      · have := hx.2
        exact (hmem x (by omega)).trans (E.val x hx.1)
      · have := E.addrs
        simp only at this
        simp [Env.spawn, this, e1]
      · have := E.pbs
        simp only at this
        simp [Env.spawn, this]
  · have hget : ∀ {t : Nat} {g : Gh}, H[t]? = some g → (H ++ [⟨pb, emptyHeap, []⟩])[t]? = some g := by
      intro t g h
      rw [List.getElem?_append_left (List.getElem?_eq_some_iff.1 h).1]; exact h
    constructor
    · intro l hl
      obtain ⟨g, k, hg, h⟩ := K.live l hl
      exact ⟨g, k, hget hg, h⟩
    · intro l hl
      obtain ⟨g, k, hg, h⟩ := K.pend l hl
      exact ⟨g, k, hget hg, h⟩
    · exact K.nodup
    · intro h t g hg
      by_cases ht : t < H.length
      · rw [List.getElem?_append_left ht] at hg
        exact K.clean h t g hg
      · have hg2 := (List.getElem?_eq_some_iff.1 hg).1
        simp only [List.length_append, List.length_cons, List.length_nil] at hg2
        have : t = H.length := by omega
        subst this
        simp at hg
        subst hg
        refine ⟨by intro d hd; simp [emptyHeap, AHeap.shape] at hd, ?_⟩
        rintro k ⟨⟨g, hg, _⟩, _⟩; simp [emptyHeap] at hg
  · intro l hl _ x hx
    obtain ⟨g, k, hg, hk, _, hp, hfit, _⟩ := K.live l hl
    obtain ⟨c, hc, T⟩ := B.getH hg
    obtain ⟨d, hd, d1, d2⟩ := seg_of_has T.ch.wf hk.1
    have := T.ch.wf.uptr_ge k
    unfold PBlock.Byte at hx
    exact hmem x (hsegU _ g hg x (segAt_shape.2 ⟨d, hd, by omega, by omega⟩))

/-- A new thread, whose structure is in unused memory. -/
theorem spawn_eff {cl : Prop} {s : PS} {G : PSpec} (I : PInv Ω cl s G) {a z pb : Nat} (h1 : a ≤ pb) (h2 : pb + 1536 ≤ a + z)
    (h3 : a + z < W64) (h4 : ∀ x, a ≤ x → x < a + z → s.w.src.os.used x = false) :
    ∃ s', posixSpawn s a z pb = .ok s' ∧ PInv (Ω.spawn a z pb) cl s' G ∧ Keeps s s' G (fun _ => True) := by
  have hu : ∀ {H L D}, PBase s H L ⟨D, Ω⟩ → ∀ x, x ≤ MB2 → s.w.src.os.used x = true := fun B x hx =>
    B.resU _ B.low x (Nat.zero_le _) (by simp only; omega)
  obtain ⟨H, L, D, B, K⟩ := id I
  have hlow : MB2 < a := by
    by_contra hc
    have := hu B a (by omega)
    rw [h4 a (Nat.le_refl _) (by omega)] at this
    cases this
  have hb : ∀ d ∈ Ω.blocs, a + z ≤ d.1 ∨ d.1 + 16 ≤ a := by
    intro d hd
    by_contra hc
    have h6 := B.reg.bloc d (List.mem_append_right _ hd)
    have h7 := B.resU d (B.ext d hd).1 (max a d.1) (by omega) (by omega)
    rw [h4 (max a d.1) (by omega) (by omega)] at h7
    cases h7
  obtain ⟨s', e, I', k, _⟩ := spawn_core I (by omega) h1 h2 h3 (fun x g1 g2 => Or.inl (h4 x g1 g2)) hb
  exact ⟨s', e, I', k⟩

end MpcAlloc
