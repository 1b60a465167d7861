import Verif.HooksTotal
import Verif.PropsHooks

/-
Property C67 for a chain fed by the light source, with huge blocks and the queue of the remote frees.
-/

namespace MpcAlloc.Hooks

variable {σ : Type}

open OnNode

/-- C67: whatever the state and the source, an allocation announces at most one block. If it announces none, it returns NULL;
else the pointer of the event is the one returned. -/
theorem C67_alloc_event {H : Tab} {S : Source σ} {s s' : CS σ} {b n r : Nat} {e : List Ev} (hA : H.alloc = true)
    (hG : H.hugeAlloc = true) (hb : b + 8 ≤ W64) (h : allocAlignH H S s b n = .ok (s', r, e)) :
    (r = 0 ∧ blocks e = []) ∨ ∃ z, blocks e = [(true, r, z)] := by
  rcases allocAlignH_blocks hA hG hb h with h | ⟨u, _, v, _, _, _, _, _, h⟩
  · exact Or.inl h
  · exact Or.inr ⟨_, h⟩

/-- C67: whatever the state and the source, a free that ends and changes the state announces exactly its block, with the pointer
given and the size read in the header of its chunk. -/
theorem C67_free_event {H : Tab} {S : Source σ} {C : Config} {s s' : CS σ} {p : Nat} {e : List Ev} (hF : H.free = true)
    (hG : H.hugeFree = true) (h : chainFreeH H S C s p = .ok (s', e)) :
    (s' = s ∧ blocks e = [] ∧ (p = 0 ∨ getChunkUnpadded s.w.mem p = .ok 0)) ∨
      ∃ z, ChunkSize s.w.mem p z ∧ blocks e = [(false, p, z)] :=
  chainFreeH_blocks hF hG h

/-- C67: the creation and the destruction of a chain do the same with and without hooks, and send their event only. -/
theorem C67_life (H : Tab) (w : World σ) (s : CS σ) (addr pb : Nat) (ts nm nr force : Bool) :
    baseInitH H w addr pb ts nm nr =
      (chainBaseInit w addr pb ts nm nr >>= fun s => .ok (s, if H.init then [.init addr] else [])) ∧
    destroyH H s force = (chainDestroy s force >>= fun s' => .ok (s', if H.destroy then [.destroy s.c.addr] else [])) :=
  ⟨rfl, rfl⟩

theorem nodup_fst {t : List (Nat × Nat)} (h : (t.map Prod.fst).Nodup) {x y : Nat × Nat} (hx : x ∈ t) (hy : y ∈ t) (e : x.1 = y.1) :
    x = y := by
  induction t with
  | nil => cases hx
  | cons a t ih =>
    obtain ⟨h1, h2⟩ := List.nodup_cons.1 h
    rcases List.mem_cons.1 hx with rfl | gx <;> rcases List.mem_cons.1 hy with rfl | gy
    · rfl
    · exact absurd (show x.1 ∈ t.map Prod.fst from List.mem_map.2 ⟨y, gy, e.symm⟩) h1
    · exact absurd (show y.1 ∈ t.map Prod.fst from List.mem_map.2 ⟨x, gx, e⟩) h1
    · exact ih h2 gx gy

/-- C67, for valid calls on a chain fed by the light source, with huge blocks and remote frees: an observer that only receives
the events of the allocations and of the frees never sees a block allocated twice nor the free of an unknown block or with
another size. Its table holds exactly the live blocks of the client and those that wait in the queue, each one with the size
of its chunk. -/
theorem C67_replay_source_partial {H : Tab} {C : Config} {addr pb : Nat} {s : CS Light} {L Q : List Blk} {T : List Ev}
    (hA : H.alloc = true) (hGA : H.hugeAlloc = true) (hF : H.free = true) (hGF : H.hugeFree = true)
    (h : STrace H C addr pb s L Q T) :
    ∃ t, observe [] T = some t ∧ (t.map Prod.fst).Nodup ∧ (∀ p, p ∈ t.map Prod.fst ↔ p ∈ L.map Blk.ptr ∨ p ∈ Q.map Blk.ptr) ∧
      ∀ x ∈ t, ChunkSize s.w.mem x.1 x.2 ∧ ∀ l, l ∈ L ∨ l ∈ Q → l.ptr = x.1 → l.len + 16 ≤ x.2 := by
  obtain ⟨A, K, Qc, t, I, o⟩ := h.inv hA hGA hF hGF
  have V := I.view
  have W := I.inv.ch.wf
  refine ⟨t, o, V.keys, ?_, ?_⟩
  · intro p
    rw [← List.mem_append, ← List.map_append]
    constructor
    · intro hp
      obtain ⟨x, hx, rfl⟩ := List.mem_map.1 hp
      obtain ⟨l, hl, he⟩ := V.back x hx
      exact List.mem_map.2 ⟨l, hl, he⟩
    · intro hp
      obtain ⟨l, hl, rfl⟩ := List.mem_map.1 hp
      obtain ⟨c, _, _, _, _, h5⟩ := V.live l hl
      exact List.mem_map.2 ⟨_, h5, rfl⟩
  · intro x hx
    have key : ∀ l ∈ L ++ Q, l.ptr = x.1 → ∃ c, A.Used c ∧ c.uptr = x.1 ∧ x.1 + l.len ≤ c.addr + c.size ∧ c.size = x.2 := by
      intro l hl he
      obtain ⟨c, h1, h2, h3, _, h5⟩ := V.live l hl
      refine ⟨c, h1, h2.trans he, by rw [← he]; exact h3, ?_⟩
      have := nodup_fst V.keys h5 hx he
      rw [← this]
    constructor
    · obtain ⟨l, hl, he⟩ := V.back x hx
      obtain ⟨c, h1, h2, _, h3⟩ := key l hl he
      obtain ⟨g1, _, g3⟩ := getChunkUnpadded_used W I.inv.ch.mem h1
      rw [h2] at g1
      exact ⟨_, g1, g3.trans h3⟩
    · intro l hl he
      obtain ⟨c, h1, h2, h3, h4⟩ := key l (List.mem_append.2 hl) he
      have := W.uptr_ge c
      omega

/-- C67, for valid calls on a chain fed by the light source: the purge of the queue announces each entry, in the order of the
remote frees, and frees its block just after. It frees and allocates nothing else. -/
theorem C67_purge_events_partial {H : Tab} {C : Config} {addr pb : Nat} {s s' : CS Light} {L Q : List Blk} {T e : List Ev}
    (hA : H.alloc = true) (hGA : H.hugeAlloc = true) (hF : H.free = true) (hGF : H.hugeFree = true) (hE : H.flushEntry = true)
    (h : STrace H C addr pb s L Q T) (hp : purgeRfqH H (lightSource C) C s = .ok (s', e)) :
    told e = Q.flatMap (fun k => [Note.entry k.ptr, Note.freed k.ptr]) := by
  obtain ⟨A, K, Qc, t, I, _⟩ := h.inv hA hGA hF hGF
  obtain ⟨_, _, _, _, _, k⟩ := I.purge hF hGF hp
  exact k hE

/-- C67, for valid calls on a chain fed by the light source: the hooks add no failure. What ends without hooks ends with them
and sends events; a free of a live block and a purge always end, provided the event of the purge is not asked for
(`C67_refuted_flush`). -/
theorem C67_no_failure_source_partial {H : Tab} {C : Config} {addr pb : Nat} {s : CS Light} {L Q : List Blk} {T : List Ev}
    (hA : H.alloc = true) (hGA : H.hugeAlloc = true) (hF : H.free = true) (hGF : H.hugeFree = true)
    (h : STrace H C addr pb s L Q T) :
    (∀ b n s' r, GoodBound b → n ≠ 0 → PSize (reqSize b n) → allocAlign (lightSource C) s b n = .ok (s', r) →
      ∃ e, allocAlignH H (lightSource C) s b n = .ok (s', r, e)) ∧
    (∀ l ∈ L, ∃ s' e, chainFreeH H (lightSource C) C s l.ptr = .ok (s', e)) ∧
    (H.flush = false → ∃ s' e, purgeRfqH H (lightSource C) C s = .ok (s', e)) := by
  obtain ⟨A, K, Qc, t, I, _⟩ := h.inv hA hGA hF hGF
  refine ⟨fun b n s' r hb hn hz e => salloc_total H I.inv hb hn hz e, ?_, fun hH => purgeH_total hH I.inv I.q⟩
  intro l hl
  obtain ⟨c, h1, h2, _⟩ := I.view.live l (List.mem_append_left _ hl)
  rw [← h2]
  exact sfree_total H I.inv h1

/-- A chain of a thread fed by the light source: a huge block is allocated, put in the queue by another thread, and freed by the
purge. -/
example : ∃ (s s' : CS Light) (l : Blk) (T e : List Ev), STrace Tab.most Config.default 4194304 4194304 s [] [l] T ∧
    purgeRfqH Tab.most (lightSource Config.default) Config.default s = .ok (s', e) ∧
    told e = [Note.entry l.ptr, Note.freed l.ptr] ∧ STrace Tab.most Config.default 4194304 4194304 s' [] [] (T ++ e) ∧
    observe [] (T ++ e) = some [] := by
  have h1 : ∀ x, x ≤ MB2 → os2.used x = true := by intro x hx; simp [os2]; omega
  have h2 : ∀ x, 4194304 ≤ x → x < 4194304 + 1536 → os2.used x = true := by intro x h1 h2; simp [os2]; omega
  obtain ⟨u, e, I, eR, eS, e1, e2, _⟩ :=
    chainBaseInit_ok ⟨fun _ => 0, Regions.empty, Light.init os2⟩ (addr := 4194304) (pb := 4194304) false false false (by omega) (by omega)
  obtain ⟨s0, hs0⟩ : ∃ s0 : CS Light, s0 = { u with c := { u.c with hasSrc := true } } := ⟨_, rfl⟩
  have eu : sourceChain ⟨fun _ => 0, Regions.empty, Light.init os2⟩ 4194304 4194304 false false = .ok s0 := by
    unfold sourceChain userInit
    rw [e, Outcome.ok_bind, if_neg (by simp), Outcome.pure_eq, Outcome.ok_bind, hs0]
    rfl
  have T0 : STrace Tab.most Config.default 4194304 4194304 s0 [] [] [] :=
    .init Regions.empty_ok (fun _ => rfl) h1 (by omega) (by omega) h2 eu
  have hsz : PSize (reqSize 0 16777216) := by unfold PSize; decide
  have hal : alignedSize 0 16777216 = 16777216 := rfl
  obtain ⟨I0, _, _⟩ := sourceChain_inv Regions.empty_ok (fun _ => rfl) h1 (by omega) (by omega) h2 eu
  obtain ⟨s1, d, A1, K1, f1, R1⟩ : ∃ s1 d A1 K1, allocAlign (lightSource Config.default) s0 0 16777216 = .ok (s1, d.uptr) ∧
      SAlloc 4194304 s0 emptyHeap [] [] (areas 4194304) 0 16777216 d s1 A1 K1 := by
    have hfit := psize_fits (N := alignedSize 0 16777216) (by rw [hal]; unfold PSize; decide)
    rcases salloc_ok (C := Config.default) I0 (b := 0) (n := 16777216) (Or.inl (by omega)) (by omega) hfit.1 hfit.2 with
      ⟨⟨k, hk, hR⟩, _⟩ | h
    · exfalso
      apply hR.1
      have hsrc : s0.w.src = Light.init os2 := by rw [hs0]; exact eS
      rw [hsrc]
      rw [hal] at hk
      have hb : blocSize k ≤ 67108864 := by
        unfold blocSize
        have hM : MB2 = 2097152 := rfl
        rw [hM]
        omega
      have hb0 : 0 < blocSize k := by
        unfold blocSize
        have hM : MB2 = 2097152 := rfl
        rw [hM]
        omega
      generalize blocSize k = z at hb hb0
      have hpu : pageUp z ≤ 67112960 := by
        unfold pageUp
        omega
      refine ⟨hb0, by decide, by decide, ?_, fun i hi => ?_⟩
      · show 1099511627776 + 0 * 4294967296 + _ ≤ _
        omega
      · show decide (1099511627776 + 0 * 4294967296 + i ≤ MB2 ∨
          (4194304 ≤ 1099511627776 + 0 * 4294967296 + i ∧ 1099511627776 + 0 * 4294967296 + i < 4194304 + 1536)) = false
        exact decide_eq_false (by omega)
    · exact h
  obtain ⟨g1, _⟩ := C67_no_failure_source_partial (H := Tab.most) rfl rfl rfl rfl T0
  obtain ⟨ev1, f2⟩ := g1 0 16777216 s1 d.uptr (Or.inl (by omega)) (by omega) hsz f1
  have T1 := T0.alloc (Or.inl (by omega)) (by omega) hsz f2
  have ts1 : s1.c.threadSafe = false := by rw [R1.chain, hs0]; exact e2
  obtain ⟨A, K, Qc, t, J, _⟩ := T1.inv rfl rfl rfl rfl
  obtain ⟨c, c1, c2, _⟩ := J.view.live ⟨d.uptr, 16777216, 0⟩ (by simp)
  obtain ⟨s2, f3, _⟩ := rfqRegister_ok J.inv J.q c1 (J.notQ (l := ⟨d.uptr, 16777216, 0⟩) (by simp) c2)
  have f4 : remoteFreeH Tab.most (lightSource Config.default) Config.default s1 d.uptr = .ok (s2, []) := by
    unfold remoteFreeH
    rw [if_neg (by simp [J.inv.ch.dead]), ts1, if_neg (by simp), ← show c.uptr = d.uptr from c2, f3]
    rfl
  have T2 := T1.remote (l := ⟨d.uptr, 16777216, 0⟩) (by simp) f4
  rw [ts1] at T2
  simp only [List.filter_cons, bne_self_eq_false, Bool.false_eq_true, if_false, List.filter_nil, List.nil_append] at T2
  obtain ⟨s3, ev3, f5⟩ := (C67_no_failure_source_partial (H := Tab.most) rfl rfl rfl rfl T2).2.2 rfl
  have T3 := T2.purge f5
  refine ⟨s2, s3, _, _, ev3, T2, f5, C67_purge_events_partial rfl rfl rfl rfl rfl T2 f5, T3, ?_⟩
  obtain ⟨t3, o3, _, m3, _⟩ := C67_replay_source_partial rfl rfl rfl rfl T3
  rw [o3]
  cases t3 with
  | nil => rfl
  | cons x t3 =>
    have := (m3 x.1).1 (by simp)
    simp at this

end MpcAlloc.Hooks
