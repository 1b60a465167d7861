import Verif.Merge
import Verif.Chain
import Mathlib.Data.List.Chain

/-
Effect of a whole allocation, of a free and of adding a segment on the abstract heap.
-/

namespace MpcAlloc

/-- A chunk given to the user. -/
def AHeap.Used (A : AHeap) (c : Ck) : Prop := A.Has c ∧ ∃ p, c.st = .used p

/-- Base and size of the segments. -/
def AHeap.shape (A : AHeap) : List (Nat × Nat) := A.segs.map (fun s => (s.base, s.size))

/-- Not both free. -/
def NotBothFree (c d : Ck) : Prop := ¬ (c.st = .free ∧ d.st = .free)

/-- No two neighbouring chunks are both free. -/
def AHeap.NoAdj (A : AHeap) : Prop := ∀ s ∈ A.segs, s.chunks.IsChain NotBothFree

/-- Byte that no allocation may change: outside of the list heads, of free chunks and of chunk headers. -/
def Quiet (pb : Nat) (A : AHeap) (x : Nat) : Prop := ¬ PoolAt pb x ∧ ¬ A.FreeAt x ∧ ¬ A.HdrIn x

theorem AHeap.has_used_or_free {pb : Nat} {A : AHeap} (W : A.WF pb) {c : Ck} (h : A.Has c) :
    A.Used c ∨ c.st = .free := by
  have := (W.has_wf h).nstop
  cases hst : c.st with
  | free => exact Or.inr rfl
  | used p => exact Or.inl ⟨h, p, hst⟩
  | stop => exact absurd hst this

theorem Ctx.used (K : Ctx) (cs : List Ck) (fl : Nat → List Ck) (x : Ck) :
    (K.fill cs fl).Used x ↔ (x ∈ cs ∨ K.Rest x) ∧ ∃ p, x.st = .used p := by
  unfold AHeap.Used; rw [K.has]

theorem Ctx.shape (K : Ctx) (cs cs' : List Ck) (fl fl' : Nat → List Ck) :
    (K.fill cs fl).shape = (K.fill cs' fl').shape := by simp [AHeap.shape, Ctx.fill, Ctx.seg]

theorem Ctx.noAdj (K : Ctx) (cs : List Ck) (fl : Nat → List Ck) :
    (K.fill cs fl).NoAdj ↔ (K.p ++ cs ++ K.q).IsChain NotBothFree ∧
      ∀ s, (s ∈ K.S1 ∨ s ∈ K.S2) → s.chunks.IsChain NotBothFree := by
  unfold AHeap.NoAdj Ctx.fill Ctx.seg
  simp only [List.mem_append, List.mem_cons]
  constructor
  · intro h
    exact ⟨h _ (Or.inr (Or.inl rfl)), fun s hs => h s (by grind)⟩
  · rintro ⟨h1, h2⟩ s (hs | rfl | hs)
    · exact h2 s (Or.inl hs)
    · exact h1
    · exact h2 s (Or.inr hs)

/-- Headers after a change of the hole. -/
theorem Ctx.hdrIn {K : Ctx} {cs cs' : List Ck} {fl fl' : Nat → List Ck} {x : Nat}
    (h : (K.fill cs' fl').HdrIn x) :
    (K.fill cs fl).HdrIn x ∨ ∃ d ∈ cs', d.addr ≤ x ∧ x < d.addr + 16 := by
  obtain ⟨s, hs, d, hd, h1, h2⟩ := h
  simp only [Ctx.fill, List.mem_append, List.mem_cons] at hs
  rcases hs with hs | rfl | hs
  · exact Or.inl ⟨s, by simp [Ctx.fill, hs], d, hd, h1, h2⟩
  · simp only [Seg.ext, List.mem_append, List.mem_singleton] at hd
    simp only [Ctx.seg, List.mem_append] at hd
    rcases hd with ((hd | hd) | hd) | hd
    · exact Or.inl ⟨K.seg cs, K.seg_mem cs fl, d, by simp [Seg.ext, Ctx.seg, hd], h1, h2⟩
    · exact Or.inr ⟨d, hd, h1, h2⟩
    · exact Or.inl ⟨K.seg cs, K.seg_mem cs fl, d, by simp [Seg.ext, Ctx.seg, hd], h1, h2⟩
    · refine Or.inl ⟨K.seg cs, K.seg_mem cs fl, d, ?_, h1, h2⟩
      simp only [Seg.ext, List.mem_append, List.mem_singleton]
      exact Or.inr hd
  · exact Or.inl ⟨s, by simp [Ctx.fill, hs], d, hd, h1, h2⟩

/-- Free bytes after a change of the hole. -/
theorem Ctx.freeAt {K : Ctx} {cs cs' : List Ck} {fl fl' : Nat → List Ck} {x : Nat}
    (h : (K.fill cs' fl').FreeAt x) :
    (K.fill cs fl).FreeAt x ∨ ∃ d ∈ cs', d.st = .free ∧ d.addr ≤ x ∧ x < d.addr + d.size := by
  obtain ⟨d, hd, hf, h1, h2⟩ := h
  rcases (K.has _ _ _).1 hd with hd | hd
  · exact Or.inr ⟨d, hd, hf, h1, h2⟩
  · exact Or.inl ⟨d, (K.has _ _ _).2 (Or.inr hd), hf, h1, h2⟩

theorem Ctx.freeAt_mem {K : Ctx} {cs : List Ck} {fl : Nat → List Ck} {x : Nat} {d : Ck} (hd : d ∈ cs)
    (hf : d.st = .free) (h1 : d.addr ≤ x) (h2 : x < d.addr + d.size) : (K.fill cs fl).FreeAt x :=
  ⟨d, K.has_of_mem fl hd, hf, h1, h2⟩

/-- The C code between the search and the insertion of the residue, on the pool view. -/
def takeChunk (P : Pool) (s : Heap) (chunk size : Nat) : Outcome (Heap × Nat) := do
  if hSize s.mem chunk < 32 then .abort else do
  let (m, v, res) ← splitFreeBloc s.mem (largeToV chunk) size
  let s := { s with mem := m }
  if getSize s.mem v < calcChunkSize size then .abort else
  if res ≠ 0 then do
    let h ← freeListInsert P s (vLarge res) false
    return (h, v)
  else return (s, v)

theorem storeClass_exists {size : Nat} (h : 32 ≤ size) (h' : size < W63) : ∃ j, IsStoreClass size j := by
  obtain ⟨j, hj⟩ := insertIdx_spec h h'
  exact ⟨j, hj.2⟩

/-- Abstract effect of taking `d` out of the free chunk `c`. -/
structure TakeRel (pb : Nat) (A : AHeap) (c : Ck) (n : Nat) (d : Ck) (A' : AHeap) : Prop where
  wf : A'.WF pb
  addr : d.addr = c.addr
  st : d.st = .used none
  size : calcChunkSize n ≤ d.size
  le : d.size ≤ c.size
  has : A'.Has d
  used : ∀ x, A'.Used x ↔ A.Used x ∨ x = d
  shape : A'.shape = A.shape
  noAdj : A.NoAdj → A'.NoAdj
  free : ∀ x, A'.FreeAt x → A.FreeAt x
  tight : d.size < cutSize n + 32
  rest : ∀ x : Ck, x.st = .free → (A'.Has x ↔ (A.Has x ∧ x ≠ c) ∨
    (d.size < c.size ∧ x = ⟨c.addr + d.size, c.size - d.size, .free⟩))
  cut : d.size = c.size ∨ d.size = cutSize n
  lists : (d.size = c.size ∧ A'.fl = flDel A.fl [c]) ∨ (d.size < c.size ∧ ∃ j, IsStoreClass (c.size - d.size) j ∧
    A'.fl = updFl (flDel A.fl [c]) j (⟨c.addr + d.size, c.size - d.size, .free⟩ :: flDel A.fl [c] j))

theorem isChain_use {p q : List Ck} {c d : Ck} (h : (p ++ [c] ++ q).IsChain NotBothFree) (hd : d.st ≠ .free) :
    (p ++ [d] ++ q).IsChain NotBothFree := by
  simp only [List.append_assoc, List.isChain_append, List.cons_append, List.nil_append,
    List.isChain_cons] at h ⊢
  refine ⟨h.1, ⟨fun y _ hh => hd hh.1, h.2.1.2⟩, ?_⟩
  intro x hx y hy hh
  simp at hy
  subst hy
  exact hd hh.2

theorem isChain_cut {p q : List Ck} {c d r : Ck} (h : (p ++ [c] ++ q).IsChain NotBothFree) (hc : c.st = .free)
    (hd : d.st ≠ .free) : (p ++ [d, r] ++ q).IsChain NotBothFree := by
  simp only [List.append_assoc, List.isChain_append, List.cons_append, List.nil_append,
    List.isChain_cons] at h ⊢
  refine ⟨h.1, ⟨fun y _ hh => hd hh.1, ⟨fun y hy hh => ?_, h.2.1.2⟩⟩, ?_⟩
  · exact h.2.1.1 y hy ⟨hc, hh.2⟩
  · intro x hx y hy hh
    simp at hy
    subst hy
    exact hd hh.2

theorem takeChunk_ok {pb : Nat} {A : AHeap} {c : Ck} {n : Nat} (W : A.WF pb) (hcA : A.Has c)
    (hcf : c.st = .free) (hsz : calcChunkSize n ≤ c.size) :
    ∃ d A', TakeRel pb A c n d A' ∧
      ∀ s, MemOK (stdPool pb) s A → ∃ s1 s', freeListRemove (stdPool pb) s c.addr = .ok s1 ∧
        takeChunk (stdPool pb) s1 c.addr n = .ok (s', d.addr + 15) ∧ MemOK (stdPool pb) s' A' ∧
        ∀ x, Quiet pb A x → s'.mem x = s.mem x := by
  obtain ⟨K, hA⟩ := Ctx.of_has hcA
  generalize A.fl = fl at hA
  subst hA
  have hcw := W.has_wf hcA
  have hr := W.has_range hcA
  obtain ⟨W1, rm⟩ := remove_ok W hcf
  have hcut := cutSize_le hcw hsz
  have hcalc := calc_ge n
  have hcutge : calcChunkSize n ≤ cutSize n := by unfold cutSize; omega
  have hnrest := Ctx.not_rest W (c := c) (by simp)
  have husecl : (c.use).st = .used none := rfl
  by_cases hs : c.size < cutSize n + 32
  · refine ⟨c.use, K.fill [c.use] (flDel fl [c]), ⟨W1, rfl, rfl, hsz, Nat.le_refl _, ?_, ?_, ?_, ?_, ?_, hs, ?_, Or.inl rfl, Or.inl ⟨rfl, rfl⟩⟩, ?_⟩
    · exact K.has_of_mem _ (by simp)
    · intro x
      rw [K.used, K.used]
      constructor
      · rintro ⟨hx | hx, hp⟩
        · exact Or.inr (by simpa using hx)
        · exact Or.inl ⟨Or.inr hx, hp⟩
      · rintro (⟨hx | hx, hp⟩ | rfl)
        · rw [List.mem_singleton] at hx; subst hx; rw [hcf] at hp; simp at hp
        · exact ⟨Or.inr hx, hp⟩
        · exact ⟨Or.inl (by simp), none, rfl⟩
    · exact K.shape _ _ _ _
    · intro h
      rw [K.noAdj] at h ⊢
      exact ⟨isChain_use h.1 (by simp [Ck.use]), h.2⟩
    · intro x hx
      rcases Ctx.freeAt (cs := [c]) (fl := fl) hx with h | ⟨d, hd, hf, _⟩
      · exact h
      · rw [List.mem_singleton] at hd; subst hd; simp [Ck.use] at hf
    · intro x hx
      rw [K.has, K.has]
      constructor
      · rintro (h | h)
        · rw [List.mem_singleton] at h; subst h; simp [Ck.use] at hx
        · exact Or.inl ⟨Or.inr h, by rintro rfl; exact hnrest h⟩
      · rintro (⟨h | h, h2⟩ | ⟨h, _⟩)
        · exact absurd (List.mem_singleton.1 h) h2
        · exact Or.inr h
        · exact absurd h (Nat.lt_irrefl _)
    · intro s hM
      obtain ⟨s1, e1, M1, f1⟩ := rm s hM
      refine ⟨s1, s1, e1, ?_, M1, fun x hq => f1 x hq.1 hq.2.1⟩
      have hz : hSize s1.mem c.addr = c.size :=
        M1.hsize W1 (c := c.use) (K.has_of_mem _ (by simp))
      have hsp := split_none (c := c.use) W1 hsz M1 hs
      have hsp' : splitFreeBloc s1.mem (c.addr + 15) n = .ok (s1.mem, c.addr + 15, 0) := hsp
      unfold takeChunk
      rw [hz, if_neg (by omega), largeToV_eq (by omega), hsp', Outcome.ok_bind]
      simp only
      have hg : getSize s1.mem (c.addr + 15) = c.size := by
        unfold getSize; rw [vLarge_eq (by omega)]; exact hz
      rw [hg, if_neg (by omega)]
      rfl
  · have hs : cutSize n + 32 ≤ c.size := by omega
    have W2 := wf_split (user := n) W1 rfl hs
    simp only [Ck.use] at W2
    obtain ⟨wd, wr⟩ := cut_wf (user := n) hcw hs
    generalize hd : (⟨c.addr, cutSize n, .used none⟩ : Ck) = d at W2 wd
    generalize hre : (⟨c.addr + cutSize n, c.size - cutSize n, .used none⟩ : Ck) = r at W2 wr
    have hda : d.addr = c.addr := by rw [← hd]
    have hds : d.size = cutSize n := by rw [← hd]
    have hdt : d.st = .used none := by rw [← hd]
    have hra : r.addr = c.addr + cutSize n := by rw [← hre]
    have hrs : r.size = c.size - cutSize n := by rw [← hre]
    have hrt : r.st = .used none := by rw [← hre]
    obtain ⟨j, hj⟩ := storeClass_exists (size := r.size) (by omega) (by omega)
    let K2 : Ctx := { K with p := K.p ++ [d] }
    have hK2 : ∀ l fl, K.fill (d :: l) fl = K2.fill l fl := by
      intro l fl; simp [Ctx.fill, Ctx.seg, K2]
    rw [hK2] at W2
    have W3 := wf_insAt W2 (c := r) (by rw [hrt]; simp) hj false
    have hfin : K2.fill [r.mkFree] (updFl (flDel fl [c]) j (insAt false (flDel fl [c] j) r.mkFree)) =
      K.fill [d, r.mkFree] (updFl (flDel fl [c]) j (insAt false (flDel fl [c] j) r.mkFree)) := (hK2 _ _).symm
    refine ⟨d, _, ⟨W3, hda, hdt, by omega, by omega, ?_, ?_, ?_, ?_, ?_, by omega, ?_, Or.inr hds,
      Or.inr ⟨by omega, j, by rw [hds, ← hrs]; exact hj, by rw [hds]; subst hre; rfl⟩⟩, ?_⟩
    · rw [hfin]; exact K.has_of_mem _ (by simp)
    · intro x
      rw [hfin, K.used, K.used]
      constructor
      · rintro ⟨hx | hx, hp⟩
        · rcases List.mem_cons.1 hx with rfl | hx
          · exact Or.inr rfl
          · rw [List.mem_singleton] at hx; subst hx; simp [Ck.mkFree] at hp
        · exact Or.inl ⟨Or.inr hx, hp⟩
      · rintro (⟨hx | hx, hp⟩ | rfl)
        · rw [List.mem_singleton] at hx; subst hx; rw [hcf] at hp; simp at hp
        · exact ⟨Or.inr hx, hp⟩
        · exact ⟨Or.inl (by simp), none, hdt⟩
    · rw [hfin]; exact K.shape _ _ _ _
    · intro h
      rw [hfin]
      rw [K.noAdj] at h ⊢
      exact ⟨isChain_cut h.1 hcf (by rw [hdt]; simp), h.2⟩
    · intro x hx
      rw [hfin] at hx
      rcases Ctx.freeAt (cs := [c]) (fl := fl) hx with h | ⟨y, hy, hf, h1, h2⟩
      · exact h
      · refine Ctx.freeAt_mem (d := c) (by simp) hcf ?_ ?_
        · rcases List.mem_cons.1 hy with rfl | hy
          · rw [hdt] at hf; simp at hf
          · rw [List.mem_singleton] at hy; subst hy; simp only [Ck.mkFree] at h1; omega
        · rcases List.mem_cons.1 hy with rfl | hy
          · rw [hdt] at hf; simp at hf
          · rw [List.mem_singleton] at hy; subst hy; simp only [Ck.mkFree] at h2; omega
    · intro x hx
      rw [hfin, K.has, K.has]
      have hrf : r.mkFree = ⟨c.addr + d.size, c.size - d.size, .free⟩ := by
        rw [← hre, hds]; rfl
      constructor
      · rintro (h | h)
        · rcases List.mem_cons.1 h with rfl | h
          · rw [hdt] at hx; simp at hx
          · rw [List.mem_singleton] at h
            exact Or.inr ⟨by omega, by rw [h, hrf]⟩
        · exact Or.inl ⟨Or.inr h, by rintro rfl; exact hnrest h⟩
      · rintro (⟨h | h, h2⟩ | ⟨_, rfl⟩)
        · exact absurd (List.mem_singleton.1 h) h2
        · exact Or.inr h
        · exact Or.inl (by rw [hrf]; simp)
    · intro s hM
      obtain ⟨s1, e1, M1, f1⟩ := rm s hM
      have hz : hSize s1.mem c.addr = c.size :=
        M1.hsize W1 (c := c.use) (K.has_of_mem _ (by simp))
      obtain ⟨m2, e2, M2, f2⟩ := split_ok (c := c.use) (user := n) W1 rfl hsz M1 hs
      have e2' : splitFreeBloc s1.mem (c.addr + 15) n = .ok (m2, c.addr + 15, c.addr + cutSize n + 15) := e2
      simp only [Ck.use] at M2
      rw [hd, hre, hK2] at M2
      obtain ⟨s3, e3, M3, f3⟩ := freeListInsert_ok (b := false) W2 (by rw [hrt]; simp) hj M2
      refine ⟨s1, s3, e1, ?_, M3, ?_⟩
      · unfold takeChunk
        rw [hz, if_neg (by omega), largeToV_eq (by omega), e2', Outcome.ok_bind]
        simp only
        have hg : getSize m2 (c.addr + 15) = d.size := by
          unfold getSize; rw [vLarge_eq (by omega), ← hda]
          exact M2.hsize W2 (c := d) (by rw [← hK2]; exact K.has_of_mem _ (by simp))
        rw [hg, if_neg (by omega), if_pos (by omega), vLarge_eq (by omega), ← hra, e3, Outcome.ok_bind, hda]
        rfl
      · rintro x ⟨q1, q2, q3⟩
        have hout : x < c.addr ∨ c.addr + c.size ≤ x := by
          by_contra hcon
          exact q2 (Ctx.freeAt_mem (d := c) (by simp) hcf (by omega) (by omega))
        have h3 : s3.mem x = m2 x := by
          refine f3 x q1 ?_ (by omega)
          rw [← hK2]
          intro hx
          rcases Ctx.freeAt (cs := [c]) (fl := fl) hx with h | ⟨y, hy, hf, _⟩
          · exact q2 h
          · rcases List.mem_cons.1 hy with rfl | hy
            · rw [hdt] at hf; simp at hf
            · rw [List.mem_singleton] at hy; subst hy; rw [hrt] at hf; simp at hf
        have h2 : m2 x = s1.mem x := by
          refine f2 x hout ?_
          intro hx
          rcases Ctx.hdrIn (cs := [c]) (fl := fl) hx with h | ⟨y, hy, h1, h2⟩
          · exact q3 h
          · rw [List.mem_singleton] at hy; subst hy; simp only [Ck.use] at h1 h2; omega
        rw [h3, h2, f1 x q1 q2]

end MpcAlloc
