import Verif.SourceChain
namespace MpcAlloc

theorem rest_in {pb : Nat} {K : Ctx} {m x : Ck} {fl : Nat → List Ck} (W : (K.fill [m] fl).WF pb)
    (hx : x ∈ K.p ∨ x ∈ K.q) : K.base ≤ x.addr ∧ x.addr < K.base + K.size := by
  have hw := W.seg _ (K.seg_mem [m] fl)
  have hb := hw.bounds (c := x) (by rcases hx with h | h <;> simp [Ctx.seg, h])
  have := (hw.chunks x (by rcases hx with h | h <;> simp [Ctx.seg, h])).ge
  simp only [Ctx.seg] at hb
  omega

/-- Unless the merged chunk covers its bloc, a used chunk is left in it. -/
theorem rest_used {pb : Nat} {K : Ctx} {m : Ck} {fl : Nat → List Ck} (W : (K.fill [m] fl).WF pb) (hF : K.Fence)
    (hnw : ¬ (K.p = [] ∧ K.q = [])) :
    ∃ x, K.Rest x ∧ (∃ p, x.st = .used p) ∧ K.base ≤ x.addr ∧ x.addr < K.base + K.size := by
  have go : ∀ x, x ∈ K.p ∨ x ∈ K.q → x.st ≠ .free →
      ∃ x, K.Rest x ∧ (∃ p, x.st = .used p) ∧ K.base ≤ x.addr ∧ x.addr < K.base + K.size := by
    intro x hx hst
    have hR : K.Rest x := by rcases hx with h | h; exacts [Or.inl h, Or.inr (Or.inl h)]
    have hH : (K.fill [m] fl).Has x := (K.has _ _ _).2 (Or.inr hR)
    rcases AHeap.has_used_or_free W hH with h | h
    · exact ⟨x, hR, h.2, rest_in W hx⟩
    · exact absurd h hst
  by_cases hp : K.p = []
  · cases hq : K.q with
    | nil => exact absurd ⟨hp, hq⟩ hnw
    | cons d l => exact go d (by rw [hq]; simp) (hF.2 l d hq)
  · obtain ⟨l, d, e⟩ := (List.eq_nil_or_concat K.p).resolve_left hp
    rw [List.concat_eq_append] at e
    exact go d (by rw [e]; simp) (hF.1 l d e)

theorem SInv.segAt_seg {pb : Nat} {s : CS Light} {K : Ctx} {l : List Ck} {fl : Nat → List Ck}
    {O L : List (Nat × Nat)} {P : Res} (I : SInv pb s (K.fill l fl) O L P) : K.size % MB2 = 0 :=
  (I.ch.seg (K.base, K.size) (by rw [fill_shape]; simp)).1

/-- Insertion of the freed chunk, `m` being `c` or the result of its merge. -/
theorem sfree_ins {pb : Nat} {s s1 : CS Light} {A : AHeap} {K : Ctx} {m c : Ck} {fl : Nat → List Ck}
    {O L : List (Nat × Nat)} {P : Res} (W : A.WF pb) (hcU : A.Used c) (I1 : SInv pb s1 (K.fill [m] fl) O L P)
    (hm : ∃ p, m.st = .used p) (hnw : m.size % MB2 ≠ MB2 - 48)
    (hc1 : m.addr ≤ c.addr) (hc2 : c.addr + c.size ≤ m.addr + m.size)
    (hused : ∀ x, (K.Rest x ∧ ∃ p, x.st = .used p) ↔ A.Used x ∧ x ≠ c)
    (hshape : (K.fill [m] fl).shape = A.shape) (hF : s.c.noMerge = false → K.Fence)
    (hfree : ∀ x, (K.fill [m] fl).FreeAt x → A.FreeAt x)
    (hext : ∀ x, m.addr ≤ x → x < m.addr + m.size → A.FreeAt x ∨ (c.addr ≤ x ∧ x < c.addr + c.size))
    (hs1 : s1.c = { s.c with status := s1.c.status }) (hos : s1.w.src = s.w.src)
    (hf : ∀ x, Quiet pb A x → (x < c.addr ∨ c.addr + c.size ≤ x) → s1.w.mem x = s.w.mem x) (hl : ¬ Leak c) :
    ∃ h' A', freeListInsert (stdPool pb) s1.heap m.addr true = .ok h' ∧
      SFree pb s A O L P c (s1.setHeap h') A' L := by
  have W1 := I1.ch.wf
  obtain ⟨p, hp⟩ := hm
  obtain ⟨A', R, hs⟩ := insert_rel W1 (m := m) (by rw [hp]; simp) true
  obtain ⟨h', e1, M1, f1⟩ := hs s1.heap I1.ch.mem
  have hnm : s1.c.noMerge = s.c.noMerge := by rw [hs1]
  have hmH : (K.fill [m] fl).Has m := K.has_of_mem fl (by simp)
  have hu : ∀ x, A'.Used x ↔ A.Used x ∧ x ≠ c := fun x => (R.used x).trans (hused x)
  have hsh : A'.shape = (K.fill [m] fl).shape := R.shape
  refine ⟨h', A', e1, ?_⟩
  have I2 : SInv pb (s1.setHeap h') A' O L P := by
    refine I1.update R.wf M1 hsh (fun h => R.noAdj (hF (by rw [← hnm]; exact h)) (I1.ch.noAdj h)) ?_ ?_ ?_
    · intro d hd
      obtain ⟨h1, h2⟩ := I1.ch.seg d hd
      rcases h2 with h2 | ⟨k, hk, hk1, hk2⟩
      · exact Or.inl h2
      · refine Or.inr ⟨k, ?_, hk1, hk2⟩
        have hk32 := (W1.has_wf hk.1).ge
        have hne : k ≠ m := by
          rintro rfl
          apply hnw
          have : MB2 = 2097152 := rfl
          omega
        exact (R.used k).2 ⟨Ctx.rest_of_has W1 hk.1 (by simpa using hne), hk.2⟩
    · intro k hk
      have := (R.used k).1 hk
      exact I1.ch.room k ((K.used _ _ _).2 ⟨Or.inr this.1, this.2⟩)
    · intro x hx
      have hq := W1.outer_quiet hx
      refine f1 x hq.1 hq.2.1 ?_
      by_contra hc
      have hb := W1.has_range hmH
      obtain ⟨g, hg, hmg⟩ := hmH
      have hbd := (W1.seg g hg).bounds hmg
      rcases hx.2 with h | ⟨g', hg', h3, h4⟩
      · exact h (AHeap.segAt_ext W1 hg (Seg.mem_ext hmg) (by omega) (by omega))
      · by_cases he : g' = g
        · subst he; omega
        · have hge := (W1.seg g' hg').ge
          have := W1.seg_disj hg hg' (fun e => he e.symm)
          omega
  refine ⟨I2, fun x hx => by rw [hu]; exact ⟨fun h => h.1, fun h => ⟨h, hx⟩⟩, fun _ h => ((hu c).1 h).2 rfl,
    fun h => absurd h hl, ?_, ?_, fun d hd => by rw [← hshape, ← hsh]; exact hd,
    fun e he => Or.inl he, fun x hx _ => by rw [show (s1.setHeap h').w.src = s1.w.src from rfl, hos]; exact hx,
    by rw [show (s1.setHeap h').w.src = s1.w.src from rfl, hos]; exact .refl _, ?_⟩
  · intro h0 hB d hd
    have hd' : d ∈ A.shape := by rw [← hshape, ← hsh]; exact hd
    obtain ⟨k, hk, k1, k2⟩ := hB d hd'
    by_cases he : k = c
    · subst he
      obtain ⟨x, hx1, hx2, hx3, hx4⟩ := rest_used W1 (hF h0) (fun hpq => by
        obtain ⟨w1, w2, w3⟩ := whole_bloc W1 hpq.1 hpq.2
        have := I1.segAt_seg
        apply hnw
        have : MB2 = 2097152 := rfl
        omega)
      have hxu := (hused x).1 ⟨hx1, hx2⟩
      refine ⟨x, (hu x).2 hxu, ?_⟩
      have hb := (W1.seg _ (K.seg_mem [m] fl)).bounds (c := m) (by simp [Ctx.seg])
      simp only [Ctx.seg] at hb
      have hk32 := (W.has_wf hk.1).ge
      rw [hsh] at hd
      obtain ⟨g, hg, e⟩ := mem_shape.1 hd
      have : g = K.seg [m] := by
        by_contra hne
        have h1 := W1.seg_disj hg (K.seg_mem [m] fl) hne
        have h2 := (W1.seg _ (K.seg_mem [m] fl)).ge
        simp only [Ctx.seg] at h1 h2
        rw [← e] at k1 k2
        simp only at k1 k2
        omega
      subst this
      rw [← e]
      exact ⟨hx3, hx4⟩
    · exact ⟨k, (hu k).2 ⟨hk, he⟩, k1, k2⟩
  · have hcnt : s1.c.cnt = s.c.cnt := by rw [hs1]
    show ({ s1.c with status := h'.status } : Chain) = { s.c with status := h'.status, cnt := s1.c.cnt }
    rw [hcnt, hs1]
  · intro x h1 h2
    obtain ⟨q1, q2⟩ := quiet_frame W hcU h1 h2
    have hm' : x < m.addr ∨ m.addr + m.size ≤ x := by
      by_contra hc
      rcases hext x (by omega) (by omega) with h | h
      · exact q1.2.1 h
      · omega
    have := f1 x h1 (fun h => q1.2.1 (hfree x h)) hm'
    rw [← hf x q1 q2]
    exact this

theorem CS.lk_self {s : CS Light} {l : Bool} (h : s.c.lock = l) : s.lk l = s := by
  subst h; rfl

theorem unlockIf_lk {s : CS Light} (h1 : s.c.dead = false) (h2 : s.c.lock = false) {l : Bool} (hl : s.c.threadSafe = l) :
    unlockIf (s.lk l) = .ok s := by
  have := unlockIf_ok (s := s) (h := s.heap) h1 h2
  rw [hl] at this
  exact this

/-- Free of a live block on a chain fed by the light source. -/
theorem sfree_ok {C : Config} {pb : Nat} {s : CS Light} {A : AHeap} {O L : List (Nat × Nat)} {P : Res} {c : Ck}
    (I : SInv pb s A O L P) (hc : A.Used c) :
    ∃ s' A' L', chainFree (lightSource C) C s c.uptr = .ok s' ∧ SFree pb s A O L P c s' A' L' := by
  have W := I.ch.wf
  obtain ⟨g1, g2, g3⟩ := getChunkUnpadded_used W I.ch.mem hc
  have hr := W.has_range hc.1
  have h32 := (W.has_wf hc.1).ge
  have hu := W.uptr_ge c
  have g1' : getChunkUnpadded s.w.mem c.uptr = .ok (c.addr + 15) := g1
  have g2' : infoState s.w.mem (c.addr + 15) = SALLOC := g2
  have g3' : getSize s.w.mem (c.addr + 15) = c.size := g3
  have hMB : MB2 = 2097152 := rfl
  unfold chainFree
  rw [if_neg (by simp [I.ch.dead]), if_neg (by omega), g1', Outcome.ok_bind, if_neg (by omega)]
  rw [if_neg (by simp [g2']), g3']
  have hcalc : calcChunkSize c.size = max 32 (c.size + 16) := calc_eq (by omega)
  by_cases hh : 1048560 < c.size
  · have hH : isHuge s.c c.size = true := by
      simp only [isHuge, I.ch.src, Bool.true_and, decide_eq_true_eq]; omega
    rw [hH, if_pos rfl]
    by_cases hw : c.size % MB2 = MB2 - 48
    · have hl : ¬ Leak c := fun h => h.2 hw
      obtain ⟨K, hA⟩ := Ctx.of_has hc.1
      generalize A.fl = fl at hA
      subst hA
      obtain ⟨hp, hq⟩ := whole_of W I.ch.seg hw
      obtain ⟨s', L', e, D⟩ := smacro (C := C) I s.c.lock hc.2 hp hq
      rw [CS.lk_self rfl] at e
      have hlk : s'.c.lock = s.c.lock := by rw [D.inv.ch.lock, I.ch.lock]
      rw [CS.lk_self hlk] at e
      refine ⟨s', _, L', e, D.free (s := s) W hc W hp hq (Nat.le_refl _) (Nat.le_refl _) ?_ rfl rfl rfl
        (fun _ _ _ => rfl) hl⟩
      intro x
      rw [K.used]
      have hnr := Ctx.not_rest W (c := c) (by simp)
      constructor
      · rintro ⟨h1, h2⟩
        exact ⟨⟨Or.inr h1, h2⟩, by rintro rfl; exact hnr h1⟩
      · rintro ⟨⟨h | h, h2⟩, h3⟩
        · rw [List.mem_singleton] at h; exact absurd h h3
        · exact ⟨h, h2⟩
    · refine ⟨s, A, L, ?_, ?_⟩
      · unfold freeMacroBloc
        rw [g3', if_pos hw]; rfl
      · exact ⟨I, fun _ _ => Iff.rfl, fun h => absurd ⟨hh, hw⟩ h, fun _ => ⟨rfl, rfl⟩, fun _ h => h, rfl,
          fun _ h => h, fun _ h => Or.inl h, fun _ h _ => h, .refl _, fun _ _ _ => rfl⟩
  · have hl : ¬ Leak c := fun h => hh h.1
    have hH : isHuge s.c c.size = false := by
      simp only [isHuge, I.ch.src, Bool.true_and, decide_eq_false_iff_not]; omega
    rw [hH, if_neg (by simp), lockIf_ok I.ch.dead I.ch.lock, Outcome.ok_bind]
    change ∃ s' A' L', (freeLocked (lightSource C) (s.lk s.c.threadSafe) (c.addr + 15) >>= unlockIf) = .ok s' ∧ _
    generalize hts : s.c.threadSafe = l
    have hbase : (s.lk l).c.base = 0 := I.ch.base
    have hsrc : (s.lk l).c.hasSrc = true := I.ch.src
    have hpool : (s.lk l).c.pool = stdPool pb := I.ch.pool
    unfold freeLocked
    rw [hbase, if_neg (by simp), Outcome.pure_eq, Outcome.ok_bind]
    cases hnm : s.c.noMerge with
    | true =>
      have hnm' : (s.lk l).c.noMerge = true := hnm
      rw [hnm', if_pos rfl, Outcome.pure_eq, Outcome.ok_bind]
      simp only
      obtain ⟨K, hA⟩ := Ctx.of_has hc.1
      generalize A.fl = fl at hA
      subst hA
      have hnr := Ctx.not_rest W (c := c) (by simp)
      obtain ⟨h', A', e, F⟩ := sfree_ins (s := s) W hc I hc.2 (by omega) (Nat.le_refl _) (Nat.le_refl _) (fun x => by
        rw [K.used]
        constructor
        · rintro ⟨h1, h2⟩
          exact ⟨⟨Or.inr h1, h2⟩, by rintro rfl; exact hnr h1⟩
        · rintro ⟨⟨h | h, h2⟩, h3⟩
          · rw [List.mem_singleton] at h; exact absurd h h3
          · exact ⟨h, h2⟩) rfl (fun h => by rw [hnm] at h; simp at h) (fun _ h => h)
          (fun x h1 h2 => Or.inr ⟨h1, h2⟩) rfl rfl (fun _ _ _ => rfl) hl
      refine ⟨_, A', L, ?_, F⟩
      rw [if_neg]
      · have h1 : ((s.lk l).setHeap (s.lk l).heap) = s.lk l := rfl
        rw [h1, hpool, vLarge_eq (by omega)]
        have h2 : (s.lk l).heap = s.heap := rfl
        rw [h2, e, Outcome.ok_bind]
        exact unlockIf_lk (s := s.setHeap h') I.ch.dead I.ch.lock hts
      · rintro ⟨_, h⟩
        have h1 : ((s.lk l).setHeap (s.lk l).heap).w.mem = s.w.mem := rfl
        rw [h1, g3'] at h
        omega
    | false =>
      have hnm' : (s.lk l).c.noMerge = false := hnm
      obtain ⟨K, m, fl, R, hs⟩ := merge_rel W hc
      obtain ⟨h1, e1, M1, f1⟩ := hs s.heap I.ch.mem
      have W1 := R.wf
      have hmH : (K.fill [m] fl).Has m := K.has_of_mem fl (by simp)
      have hmr := W1.has_range hmH
      have hm32 := (W1.has_wf hmH).ge
      have e1' : mergeChunk (stdPool pb) (s.lk l).heap (c.addr + 15) = .ok (h1, m.addr + 15) := e1
      rw [hnm', if_neg (by simp), hpool, e1', Outcome.ok_bind]
      simp only
      have I1 : SInv pb (s.setHeap h1) (K.fill [m] fl) O L P := by
        refine I.update W1 M1 R.shape (fun h => R.noAdj (I.ch.noAdj h)) ?_ ?_ ?_
        · intro d hd
          obtain ⟨q1, q2⟩ := I.ch.seg d hd
          rcases q2 with q2 | ⟨k, hk, hk1, hk2⟩
          · exact Or.inl q2
          · have hk32 := (W.has_wf hk.1).ge
            have hne : k ≠ c := by rintro rfl; omega
            have := (R.used k).2 ⟨hk, hne⟩
            exact Or.inr ⟨k, (K.used _ _ _).2 ⟨Or.inr this.1, this.2⟩, hk1, hk2⟩
        · intro k hk
          rcases (K.used _ _ _).1 hk with ⟨h | h, hp⟩
          · rw [List.mem_singleton] at h
            subst h
            simp only [Ck.uptr, Ck.off, R.st]; omega
          · exact I.ch.room k ((R.used k).1 ⟨h, hp⟩).1
        · intro x hx
          have hq := W.outer_quiet hx
          refine f1 x hq ?_
          by_contra hcx
          obtain ⟨g, hg, hcg⟩ := hc.1
          have hbd := (W.seg g hg).bounds hcg
          rcases hx.2 with h | ⟨g', hg', h3, h4⟩
          · exact h (AHeap.segAt_ext W hg (Seg.mem_ext hcg) (by omega) (by omega))
          · by_cases he : g' = g
            · subst he; omega
            · have hge := (W.seg g' hg').ge
              have := W.seg_disj hg hg' (fun e => he e.symm)
              omega
      have hms : getSize h1.mem (m.addr + 15) = m.size := by
        unfold getSize; rw [vLarge_eq (by omega)]; exact M1.hsize W1 hmH
      have hst : ((s.lk l).setHeap h1) = (s.setHeap h1).lk l := rfl
      by_cases hw : m.size % MB2 = MB2 - 48
      · obtain ⟨hp, hq⟩ := whole_of W1 I1.ch.seg hw
        obtain ⟨s', L', e, D⟩ := smacro (C := C) I1 l ⟨none, R.st⟩ hp hq
        rw [if_pos ⟨hsrc, by rw [show ((s.lk l).setHeap h1).w.mem = h1.mem from rfl, hms]; exact hw⟩, hst, e,
          Outcome.ok_bind]
        have hc' := D.chain
        refine ⟨s', _, L', unlockIf_lk D.inv.ch.dead D.inv.ch.lock (by rw [hc']; exact hts),
          D.free (s := s) W hc W1 hp hq R.le R.ge R.used R.shape rfl rfl f1 hl⟩
      · obtain ⟨h', A', e, F⟩ := sfree_ins (s := s) W hc I1 ⟨none, R.st⟩ hw R.le R.ge R.used R.shape
          (fun _ => R.fence) R.free R.ext rfl rfl f1 hl
        refine ⟨_, A', L, ?_, F⟩
        rw [if_neg]
        · have hp2 : ((s.lk l).setHeap h1).c.pool = stdPool pb := hpool
          have h2 : ((s.lk l).setHeap h1).heap = (s.setHeap h1).heap := rfl
          rw [hp2, vLarge_eq (by omega), h2, e, Outcome.ok_bind]
          exact unlockIf_lk (s := (s.setHeap h1).setHeap h') I.ch.dead I.ch.lock hts
        · rintro ⟨_, h⟩
          rw [show ((s.lk l).setHeap h1).w.mem = h1.mem from rfl, hms] at h
          exact hw h
end MpcAlloc
