import Verif.PropsRegion
import Verif.PropsShared

/-
State of a user chain that starts with a buffer registered in the regions.
-/

namespace MpcAlloc

variable {σ : Type}

/-- A chain over a buffer of whole macro blocs, in a process without other registered blocs in its entries. -/
theorem userStart_ok (w : World σ) {addr pb b sz : Nat} (ts nm : Bool) (h1 : 0 < pb) (h2 : pb + 1536 < W64)
    (hw : w.regs.OK) (hv : ValidOp pb [] [] (.refill b sz)) (hr : b + sz ≤ 281474976710656) (hz : sz % MB2 = 0)
    (he : ∀ k, w.regs.ent k = 0) :
    ∃ s A, userInit w addr pb b sz ts nm false = .ok s ∧ HInv pb s [] [(b, sz)] A ∧
      RegInv s.w.mem s.w.regs [(b, sz)] ∧ s.w.src = w.src ∧ s.c.addr = addr ∧ s.c.threadSafe = ts ∧ s.c.noMerge = nm ∧
      s.c.noRegion = false ∧ s.c.base = b ∧ s.c.rfqHead = 0 ∧ readLE s.w.mem (b + 16) 8 = addr % W64 ∧
      (∀ k, A.Has k ↔ k = ⟨b + 32, sz - 48, .free⟩) ∧
      ∀ x, ¬ InHeads pb x → ¬ InBufs [(b, sz)] x → s.w.mem x = w.mem x := by
  obtain ⟨s, e, I, g1, g2, ga, gt, gm, gn, gs, gb, gc, _, gq, _, gf⟩ := chainBaseInit_ok w (addr := addr) ts nm false h1 h2
  have W : emptyHeap.WF pb := emptyHeap_wf h1 h2
  have F := freshSeg_of (A := emptyHeap) rfl hv
  obtain ⟨A', R, hs⟩ := refill_ok (σ := σ) W F
  obtain ⟨h', Rg, e1, M1, hR1, hown, f1⟩ := hs s I (fun _ => ⟨by rw [g1]; exact hw, hr, fun k _ _ => by rw [g1]; exact he k⟩)
  have hb : b ≠ 0 := by have := F.pos; omega
  have hge := F.ge
  have hsh : A'.shape = [(b, sz)] := R.shape
  have hbase : (refilled s h' Rg b sz).c.base = b := by simp only [refilled]; rw [if_pos gb]
  have hseg : ∃ g ∈ A'.segs, g.base = b ∧ g.size = sz := by
    have : (b, sz) ∈ A'.shape := by rw [hsh]; simp
    obtain ⟨g, hg, he⟩ := List.mem_map.1 this
    simp only [Prod.mk.injEq] at he
    exact ⟨g, hg, he.1, he.2⟩
  obtain ⟨g, hg, hgb, hgs⟩ := hseg
  unfold RegDone at hR1
  rw [gn, if_neg (by simp), div_ceil hz] at hR1
  have hsize : hSize h'.mem b = sz := by
    have := (M1.segs g hg).size
    rw [hgb, hgs] at this
    exact this
  have hent : ∀ k, Rg.ent k = if b / MB2 ≤ k ∧ k < b / MB2 + sz / MB2 then b else 0 := by
    intro k
    rw [hR1.2]
    unfold entSet
    rw [g1, he]
  refine ⟨refilled s h' Rg b sz, A', ?_, ⟨R.wf, ⟨I.pool, M1, I.dead, I.lock, ?_⟩, gs, hsh, ?_, ?_, hR1.1, ?_⟩, ?_, g2, ga, gt,
    gm, gn, hbase, gq, ?_, ?_, ?_⟩
  · unfold userInit
    rw [e, Outcome.ok_bind, if_pos hb, e1, Outcome.ok_bind]
    simp only [refilled, gs]
    rfl
  · intro _
    refine ⟨g, hg, by rw [hbase, hgb], ?_⟩
    simp only [refilled]; rw [if_pos gb, hgb, hgs]
  · refine ⟨by simp, by simp, fun c hc => ?_⟩
    obtain ⟨⟨g, hg, _⟩, _⟩ := (R.used c).1 hc
    simp [emptyHeap] at hg
  · intro h; exact R.noAdj (by intro s hs; simp [emptyHeap] at hs)
  · intro _; rw [hbase]; exact hb
  · refine ⟨hR1.1, ?_, ?_, ?_, ?_⟩
    · intro d hd
      rw [List.mem_singleton] at hd; subst hd
      exact ⟨F.pos, by omega, hz, hr, hsize⟩
    · intro d hd f hf
      rw [List.mem_singleton] at hd hf; subst hd; subst hf
      exact Or.inl rfl
    · intro d hd k k1 k2
      rw [List.mem_singleton] at hd; subst hd
      exact (hent k).trans (if_pos ⟨k1, k2⟩)
    · intro k hk
      have hk' : Rg.ent k ≠ 0 := hk
      rw [hent] at hk'
      split at hk'
      · rename_i hc
        exact ⟨(b, sz), by simp, (hent k).trans (if_pos hc), hc.1, hc.2⟩
      · exact absurd rfl hk'
  · rw [← ga]; exact hown gn
  · intro k
    constructor
    · intro hk
      rcases R.all k hk with ⟨g, hg, _⟩ | h
      · simp [emptyHeap] at hg
      · exact h
    · rintro rfl; exact R.has
  · intro x hx hy
    have hx' : ¬ PoolAt pb x := hx
    refine (f1 x hx' ?_ ?_).trans (gf x hx')
    · rintro ⟨c, ⟨g, hg, _⟩, _⟩
      simp [emptyHeap] at hg
    · by_contra hc
      exact hy ⟨(b, sz), by simp, by simp only; omega⟩

end MpcAlloc
