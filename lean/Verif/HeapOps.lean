import Verif.AbsHeap

/-
The pool functions of Pool.lean act on represented heaps as expected: each one maps a represented
abstract heap to another represented abstract heap. Heaps are written `K.fill cs fl`: context `K`
(other segments and neighbours) around the chunks `cs`.
-/

namespace MpcAlloc

/-- A heap with a hole for a run of chunks. -/
structure Ctx where
  S1 : List Seg
  S2 : List Seg
  base : Nat
  size : Nat
  p : List Ck
  q : List Ck

/-- Segment with the hole filled. -/
def Ctx.seg (K : Ctx) (cs : List Ck) : Seg := ⟨K.base, K.size, K.p ++ cs ++ K.q⟩
/-- Heap with the hole filled. -/
def Ctx.fill (K : Ctx) (cs : List Ck) (fl : Nat → List Ck) : AHeap :=
  ⟨K.S1 ++ K.seg cs :: K.S2, fl⟩

/-- Chunks of the context. -/
def Ctx.Rest (K : Ctx) (x : Ck) : Prop :=
  x ∈ K.p ∨ x ∈ K.q ∨ ∃ s, (s ∈ K.S1 ∨ s ∈ K.S2) ∧ x ∈ s.chunks

theorem Ctx.has (K : Ctx) (cs : List Ck) (fl : Nat → List Ck) (x : Ck) :
    (K.fill cs fl).Has x ↔ x ∈ cs ∨ K.Rest x := by
  unfold AHeap.Has Ctx.fill Ctx.Rest Ctx.seg
  simp only [List.mem_append, List.mem_cons]
  constructor
  · rintro ⟨s, hs | rfl | hs, hx⟩
    · exact Or.inr (Or.inr (Or.inr ⟨s, Or.inl hs, hx⟩))
    · simp only [List.mem_append] at hx; grind
    · exact Or.inr (Or.inr (Or.inr ⟨s, Or.inr hs, hx⟩))
  · rintro (hx | hx | hx | ⟨s, hs | hs, hx⟩)
    · exact ⟨_, Or.inr (Or.inl rfl), by simp [hx]⟩
    · exact ⟨_, Or.inr (Or.inl rfl), by simp [hx]⟩
    · exact ⟨_, Or.inr (Or.inl rfl), by simp [hx]⟩
    · exact ⟨s, Or.inl hs, hx⟩
    · exact ⟨s, Or.inr (Or.inr hs), hx⟩

theorem Ctx.of_has {A : AHeap} {c : Ck} (h : A.Has c) : ∃ K : Ctx, A = K.fill [c] A.fl := by
  obtain ⟨s, hs, hc⟩ := h
  obtain ⟨S1, S2, e1⟩ := List.append_of_mem hs
  obtain ⟨p, q, e2⟩ := List.append_of_mem hc
  refine ⟨⟨S1, S2, s.base, s.size, p, q⟩, ?_⟩
  obtain ⟨segs, fl⟩ := A
  simp only at e1
  subst e1
  simp only [Ctx.fill, Ctx.seg, AHeap.mk.injEq, and_true]
  congr 2
  obtain ⟨b, z, ch⟩ := s
  simp only at e2 ⊢
  subst e2
  simp

theorem Ctx.seg_mem (K : Ctx) (cs : List Ck) (fl : Nat → List Ck) :
    K.seg cs ∈ (K.fill cs fl).segs := by simp [Ctx.fill]

theorem Ctx.has_of_mem (K : Ctx) {cs : List Ck} (fl : Nat → List Ck) {c : Ck} (h : c ∈ cs) :
    (K.fill cs fl).Has c := (K.has cs fl c).2 (Or.inl h)

/-- Chunks of the hole are different from the chunks of the context. -/
theorem Ctx.not_rest {pb : Nat} {K : Ctx} {cs : List Ck} {fl : Nat → List Ck}
    (W : (K.fill cs fl).WF pb) {c : Ck} (hc : c ∈ cs) : ¬ K.Rest c := by
  have hcW := W.has_wf (K.has_of_mem fl hc)
  have hge := hcW.ge
  have hseg := W.seg _ (K.seg_mem cs fl)
  have ht := hseg.tiles
  simp only [Ctx.seg] at ht
  obtain ⟨b, h1, h2⟩ := tiles_append.1 ht
  obtain ⟨a, h3, h4⟩ := tiles_append.1 h1
  have hcb := tiles_mem h4 hc
  rintro (hx | hx | ⟨s, hs, hx⟩)
  · have := tiles_mem h3 hx; omega
  · have := tiles_mem h2 hx; omega
  · have hsm : s ∈ (K.fill cs fl).segs := by simp [Ctx.fill]; tauto
    have b1 := (W.seg s hsm).bounds hx
    have b2 := hseg.bounds (c := c) (by simp [Ctx.seg, hc])
    by_cases e : s = K.seg cs
    · -- same segment value twice: the pairwise condition forbids it
      have hp := W.disj
      simp only [Ctx.fill] at hp
      rw [List.pairwise_append] at hp
      have := (W.seg s hsm).ge
      rcases hs with hs | hs
      · have := hp.2.2 s hs (K.seg cs) (by simp)
        rw [e] at this
        have := hseg.ge; omega
      · have := (List.pairwise_cons.1 hp.2.1).1 s hs
        rw [e] at this
        have := hseg.ge; omega
    · have := W.seg_disj hsm (K.seg_mem cs fl) e
      have := hseg.ge
      have := (W.seg s hsm).ge
      omega

theorem Ctx.rest_of_has {pb : Nat} {K : Ctx} {cs : List Ck} {fl : Nat → List Ck}
    (_ : (K.fill cs fl).WF pb) {c : Ck} (hc : (K.fill cs fl).Has c) (hn : c ∉ cs) : K.Rest c := by
  rcases (K.has _ _ _).1 hc with h | h
  · exact absurd h hn
  · exact h

/-- Replacing the chunks of the hole by chunks covering the same bytes keeps a heap well-formed. -/
theorem Ctx.wf_replace {pb : Nat} {K : Ctx} {cs cs' : List Ck} {fl fl' : Nat → List Ck}
    (W : (K.fill cs fl).WF pb) (hT : ∀ a e, Tiles a cs e → Tiles a cs' e)
    (hW : ∀ c ∈ cs', c.WF)
    (h1 : ∀ i x, x ∈ fl' i → x.st = .free ∧ (x ∈ cs' ∨ K.Rest x) ∧ IsStoreClass x.size i)
    (h2 : ∀ x, (x ∈ cs' ∨ K.Rest x) → x.st = .free → ∃ i, x ∈ fl' i)
    (h3 : ∀ i, (fl' i).Nodup) : (K.fill cs' fl').WF pb := by
  have hseg := W.seg _ (K.seg_mem cs fl)
  have hseg' : (K.seg cs').WF := by
    refine ⟨hseg.pos, hseg.dvdB, hseg.dvdS, hseg.ge, hseg.lt, hseg.lt56, ?_, ?_⟩
    · exact tiles_replace hseg.tiles hT
    · intro c hc
      simp only [Ctx.seg, List.mem_append] at hc
      rcases hc with (hc | hc) | hc
      · exact hseg.chunks c (by simp [Ctx.seg, hc])
      · exact hW c hc
      · exact hseg.chunks c (by simp [Ctx.seg, hc])
  refine ⟨?_, ?_, ?_, W.pbpos, W.pblt, ?_, ?_, ?_, ?_, h3⟩
  · intro s hs
    simp only [Ctx.fill, List.mem_append, List.mem_cons] at hs
    rcases hs with hs | rfl | hs
    · exact W.seg s (by simp [Ctx.fill, hs])
    · exact hseg'
    · exact W.seg s (by simp [Ctx.fill, hs])
  · have hp := W.disj
    simp only [Ctx.fill, List.pairwise_append, List.pairwise_cons, List.mem_cons] at hp ⊢
    refine ⟨hp.1, ⟨hp.2.1.1, hp.2.1.2⟩, ?_⟩
    intro a ha b hb
    rcases hb with rfl | hb
    · exact hp.2.2 a ha (K.seg cs) (Or.inl rfl)
    · exact hp.2.2 a ha b (Or.inr hb)
  · intro s hs
    simp only [Ctx.fill, List.mem_append, List.mem_cons] at hs
    rcases hs with hs | rfl | hs
    · exact W.pool s (by simp [Ctx.fill, hs])
    · exact W.pool (K.seg cs) (K.seg_mem cs fl)
    · exact W.pool s (by simp [Ctx.fill, hs])
  · exact fun i c hc => (h1 i c hc).1
  · exact fun i c hc => (K.has _ _ _).2 (h1 i c hc).2.1
  · exact fun i c hc => (h1 i c hc).2.2
  · exact fun c hc hf => h2 c ((K.has _ _ _).1 hc) hf

/-! ### Removing a chunk from its list -/

/-- The chunk marked used. -/
def Ck.use (c : Ck) : Ck := { c with st := .used none }
/-- The chunk marked free. -/
def Ck.mkFree (c : Ck) : Ck := { c with st := .free }

theorem Ck.WF.use {c : Ck} (h : c.WF) : c.use.WF :=
  ⟨h.dvd, h.ge, by have := h.ge; simp [Ck.use, Ck.off]; omega, by simp [Ck.use]⟩
theorem Ck.WF.mkFree {c : Ck} (h : c.WF) : c.mkFree.WF :=
  ⟨h.dvd, h.ge, by have := h.ge; simp [Ck.mkFree, Ck.off]; omega, by simp [Ck.mkFree]⟩

theorem wf_remove {pb : Nat} {K : Ctx} {c : Ck} {fl : Nat → List Ck} {i : Nat} {l1 l2 : List Ck}
    (W : (K.fill [c] fl).WF pb) (hl : fl i = l1 ++ c :: l2) :
    (K.fill [c.use] (updFl fl i (l1 ++ l2))).WF pb := by
  have hci : c ∈ fl i := by simp [hl]
  have hcf : c.st = .free := W.flFree _ _ hci
  have hnr := Ctx.not_rest W (c := c) (by simp)
  have hnd := W.flNodup i
  simp only [Ctx.fill] at hnd
  rw [hl] at hnd
  refine Ctx.wf_replace W ?_ ?_ ?_ ?_ ?_
  · intro a e h; exact h
  · intro d hd
    rw [List.mem_singleton] at hd; subst hd
    exact (W.has_wf (K.has_of_mem fl (by simp))).use
  · intro k x hx
    have hxk : x ∈ fl k ∧ x ≠ c := by
      unfold updFl at hx
      split at hx
      · subst k
        refine ⟨by rw [hl]; grind, ?_⟩
        rintro rfl
        grind
      · refine ⟨hx, ?_⟩
        rintro rfl
        exact absurd (W.fl_unique (A := K.fill [x] fl) hx hci) (by assumption)
    refine ⟨W.flFree k x hxk.1, Or.inr ?_, W.flClass k x hxk.1⟩
    exact Ctx.rest_of_has W (W.flHas k x hxk.1) (by simpa using hxk.2)
  · rintro x (hx | hx) hf
    · rw [List.mem_singleton] at hx; subst hx; simp [Ck.use] at hf
    · obtain ⟨k, hk⟩ := W.flAll x ((K.has _ _ _).2 (Or.inr hx)) hf
      refine ⟨k, ?_⟩
      have hxc : x ≠ c := by rintro rfl; exact hnr hx
      unfold updFl
      split
      · subst k
        simp only [Ctx.fill] at hk
        rw [hl] at hk; grind
      · exact hk
  · intro k
    unfold updFl
    split
    · grind
    · exact W.flNodup k

theorem wf_insert {pb : Nat} {K : Ctx} {c : Ck} {fl : Nat → List Ck} {j : Nat} {l1 l2 : List Ck}
    (W : (K.fill [c] fl).WF pb) (hcu : c.st ≠ .free) (hj : IsStoreClass c.size j)
    (hl : fl j = l1 ++ l2) :
    (K.fill [c.mkFree] (updFl fl j (l1 ++ c.mkFree :: l2))).WF pb := by
  have hnr := Ctx.not_rest W (c := c) (by simp)
  have hnotin : ∀ k, c.mkFree ∉ fl k := by
    intro k hk
    have h1 := W.flHas k _ hk
    have h2 := K.has_of_mem fl (cs := [c]) (c := c) (by simp)
    have := W.addr_inj h1 h2 rfl
    rw [← this] at hcu
    exact hcu rfl
  refine Ctx.wf_replace W ?_ ?_ ?_ ?_ ?_
  · intro a e h; exact h
  · intro d hd
    rw [List.mem_singleton] at hd; subst hd
    exact (W.has_wf (K.has_of_mem fl (by simp))).mkFree
  · intro k x hx
    by_cases hxc : x = c.mkFree
    · subst hxc
      unfold updFl at hx
      split at hx
      · subst k; exact ⟨rfl, Or.inl (by simp), hj⟩
      · exact absurd hx (hnotin k)
    · have hxk : x ∈ fl k := by
        unfold updFl at hx
        split at hx
        · subst k; rw [hl]; grind
        · exact hx
      have hf := W.flFree k x hxk
      refine ⟨hf, Or.inr ?_, W.flClass k x hxk⟩
      refine Ctx.rest_of_has W (W.flHas k x hxk) ?_
      intro h
      rw [List.mem_singleton] at h; subst h
      exact hcu hf
  · rintro x (hx | hx) hf
    · rw [List.mem_singleton] at hx; subst hx
      exact ⟨j, by simp⟩
    · obtain ⟨k, hk⟩ := W.flAll x ((K.has _ _ _).2 (Or.inr hx)) hf
      refine ⟨k, ?_⟩
      unfold updFl
      split
      · subst k
        simp only [Ctx.fill] at hk
        rw [hl] at hk; grind
      · exact hk
  · intro k
    unfold updFl
    split
    · subst k
      have h1 := W.flNodup j
      have h2 := hnotin j
      simp only [Ctx.fill] at h1
      rw [hl] at h1 h2
      grind
    · exact W.flNodup k

end MpcAlloc
