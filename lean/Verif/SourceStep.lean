import Verif.SourceFree
import Verif.ChainRealloc

/-
Steps of a chain fed by the light source: what they keep of the other chains and of the blocks, and the remote free
queue.
-/

namespace MpcAlloc

/-- Bytes that a step on a chain keeps: the blocs of the other chains, the reserved areas, the blocks `X`. -/
def SKeep (pb : Nat) (A : AHeap) (O : List (Nat × Nat)) (P : Res) (X : Ck → Prop) (x : Nat) : Prop :=
  (∃ d ∈ O, d.1 ≤ x ∧ x < d.1 + d.2) ∨ (¬ PoolAt pb x ∧ ∃ d ∈ P, d.1 ≤ x ∧ x < d.1 + d.2) ∨
    ∃ k, A.Used k ∧ X k ∧ k.uptr ≤ x ∧ x < k.addr + k.size

/-- A step on a chain that keeps the blocks `X`. -/
structure SStep (pb : Nat) (s : CS Light) (A : AHeap) (O L : List (Nat × Nat)) (P : Res) (X : Ck → Prop) (s' : CS Light)
    (A' : AHeap) (L' : List (Nat × Nat)) : Prop where
  inv : SInv pb s' A' O L' P
  keep : ∀ k, A.Used k → X k → A'.Used k
  addr : s'.c.addr = s.c.addr
  flag : s'.c.threadSafe = s.c.threadSafe ∧ s'.c.noMerge = s.c.noMerge
  frame : ∀ x, SKeep pb A O P X x → s'.w.mem x = s.w.mem x

theorem SStep.refl {pb : Nat} {s : CS Light} {A : AHeap} {O L : List (Nat × Nat)} {P : Res} (I : SInv pb s A O L P)
    (X : Ck → Prop) : SStep pb s A O L P X s A L :=
  ⟨I, fun _ h _ => h, rfl, ⟨rfl, rfl⟩, fun _ _ => rfl⟩

theorem SStep.trans {pb : Nat} {s s1 s2 : CS Light} {A A1 A2 : AHeap} {O L L1 L2 : List (Nat × Nat)} {P : Res}
    {X X1 X2 : Ck → Prop} (h1 : SStep pb s A O L P X1 s1 A1 L1) (h2 : SStep pb s1 A1 O L1 P X2 s2 A2 L2)
    (hX : ∀ k, X k → X1 k ∧ X2 k) : SStep pb s A O L P X s2 A2 L2 := by
  refine ⟨h2.inv, fun k hk hx => h2.keep k (h1.keep k hk (hX k hx).1) (hX k hx).2, h2.addr.trans h1.addr,
    ⟨h2.flag.1.trans h1.flag.1, h2.flag.2.trans h1.flag.2⟩, ?_⟩
  intro x hx
  have a1 : SKeep pb A O P X1 x := by
    rcases hx with h | h | ⟨k, hk, hxk, h3⟩
    exacts [Or.inl h, Or.inr (Or.inl h), Or.inr (Or.inr ⟨k, hk, (hX k hxk).1, h3⟩)]
  have a2 : SKeep pb A1 O P X2 x := by
    rcases hx with h | h | ⟨k, hk, hxk, h3⟩
    exacts [Or.inl h, Or.inr (Or.inl h), Or.inr (Or.inr ⟨k, h1.keep k hk (hX k hxk).1, (hX k hxk).2, h3⟩)]
  rw [h2.frame x a2, h1.frame x a1]

/-- A kept byte is in use, not in the cache, and quiet. -/
theorem SInv.kept {pb : Nat} {s : CS Light} {A : AHeap} {O L : List (Nat × Nat)} {P : Res} (I : SInv pb s A O L P)
    {X : Ck → Prop} {x : Nat} (h : SKeep pb A O P X x) :
    ¬ PoolAt pb x ∧ s.w.src.os.used x = true ∧ (∀ e ∈ L, x < e.1 ∨ e.1 + e.2 ≤ x) ∧
      (¬ A.SegAt x ∨ ∃ k, A.Used k ∧ X k ∧ k.uptr ≤ x ∧ x < k.addr + k.size) := by
  have W := I.ch.wf
  have hap := I.lin.apart
  rcases h with ⟨d, hd, h1, h2⟩ | ⟨h0, d, hd, h1, h2⟩ | ⟨k, hk, hX, h1, h2⟩
  · have hdm : d ∈ (A.shape ++ O) ++ L := by simp [hd]
    refine ⟨?_, (I.lin.good d hdm).used x h1 h2, ?_, ?_⟩
    · intro hp
      have := I.resD _ I.pool d hdm x hp.1 hp.2
      omega
    · intro e he
      have := (List.pairwise_append.1 hap).2.2 d (by simp [hd]) e he
      unfold Apart at this
      omega
    · left
      rintro ⟨g, hg, h3, h4⟩
      have := (List.pairwise_append.1 (List.pairwise_append.1 hap).1).2.2 (g.base, g.size) (mem_shape.2 ⟨g, hg, rfl⟩) d hd
      unfold Apart at this
      simp only at this
      omega
  · refine ⟨h0, I.resU d hd x h1 h2, fun e he => I.resD d hd e (by simp [he]) x h1 h2, Or.inl ?_⟩
    rintro ⟨g, hg, h3, h4⟩
    have := I.resD d hd (g.base, g.size) (by simp [mem_shape.2 ⟨g, hg, rfl⟩]) x h1 h2
    simp only at this
    omega
  · have hu := W.uptr_ge k
    obtain ⟨g, hg, hkg⟩ := hk.1
    have hb := (W.seg g hg).bounds hkg
    have hge := (W.seg g hg).ge
    have hsm : (g.base, g.size) ∈ A.shape := mem_shape.2 ⟨g, hg, rfl⟩
    have hdm : (g.base, g.size) ∈ (A.shape ++ O) ++ L := by simp [hsm]
    refine ⟨fun hp => ?_, (I.lin.good _ hdm).used x (by simp only; omega) (by simp only; omega), fun e he => ?_,
      Or.inr ⟨k, hk, hX, h1, h2⟩⟩
    · have := I.resD _ I.pool _ hdm x hp.1 hp.2
      simp only at this
      omega
    · have := (List.pairwise_append.1 hap).2.2 (g.base, g.size) (by simp [hsm]) e he
      unfold Apart at this
      simp only at this
      omega

theorem SAlloc.step {pb : Nat} {s s' : CS Light} {A A' : AHeap} {O L L' : List (Nat × Nat)} {P : Res} {b n : Nat} {d : Ck}
    (I : SInv pb s A O L P) (R : SAlloc pb s A O L P b n d s' A' L') (X : Ck → Prop) :
    SStep pb s A O L P X s' A' L' := by
  refine ⟨R.inv, fun k hk _ => (R.used k).2 (Or.inl hk), by rw [R.chain], ⟨by rw [R.chain], by rw [R.chain]⟩, ?_⟩
  intro x hx
  obtain ⟨h1, h2, h3, h4⟩ := I.kept hx
  refine R.frame x ?_ h3 h2
  rcases h4 with h4 | ⟨k, hk, _, h5, h6⟩
  · exact I.ch.wf.outside_quiet h1 h4
  · exact I.ch.wf.user_quiet ⟨k, hk, h5, h6⟩

theorem SFree.step {pb : Nat} {s s' : CS Light} {A A' : AHeap} {O L L' : List (Nat × Nat)} {P : Res} {c : Ck}
    (I : SInv pb s A O L P) (R : SFree pb s A O L P c s' A' L') :
    SStep pb s A O L P (fun k => k ≠ c) s' A' L' := by
  refine ⟨R.inv, fun k hk hne => (R.used k hne).2 hk, by rw [R.chain], ⟨by rw [R.chain], by rw [R.chain]⟩, ?_⟩
  intro x hx
  obtain ⟨h1, h2, h3, h4⟩ := I.kept hx
  exact R.frame x h1 h4

/-- A store in the bytes of a used chunk. -/
theorem SInv.store {pb : Nat} {s : CS Light} {A : AHeap} {O L : List (Nat × Nat)} {P : Res} {m' : Mem} {c : Ck}
    (I : SInv pb s A O L P) (hc : A.Used c) (hm : ∀ x, (x < c.uptr ∨ c.addr + c.size ≤ x) → m' x = s.w.mem x) :
    SStep pb s A O L P (fun k => k ≠ c) (s.setMem m') A L := by
  have W := I.ch.wf
  have hbase : ∀ x, A.Outer pb x → m' x = s.w.mem x := by
    intro x hx
    apply hm
    by_contra hcx
    have hcx : c.uptr ≤ x ∧ x < c.addr + c.size := by omega
    have hu := W.uptr_ge c
    obtain ⟨g, hg, hcg⟩ := hc.1
    have hb := (W.seg g hg).bounds hcg
    rcases hx.2 with h | ⟨g', hg', h3, h4⟩
    · exact h (AHeap.segAt_ext W hg (Seg.mem_ext hcg) (by omega) (by omega))
    · exact W.not_user_base hg' h3 h4 ⟨c, hc, hcx.1, hcx.2⟩
  have M : MemOK (stdPool pb) ⟨m', s.c.status⟩ A := by
    refine I.ch.mem.congr W (fun x hx => hm x ?_)
    by_contra hcx
    have hcx : c.uptr ≤ x ∧ x < c.addr + c.size := by omega
    have hus : A.UserAt x := ⟨c, hc, hcx.1, hcx.2⟩
    rcases hx with h | h
    · exact (W.user_quiet hus).1 h
    · exact h.2 hus
  have I' := I.update (h := ⟨m', s.c.status⟩) W M rfl I.ch.noAdj (fun d hd => (I.ch.seg d hd).2) I.ch.room hbase
  refine ⟨I', fun k hk _ => hk, rfl, ⟨rfl, rfl⟩, ?_⟩
  intro x hx
  obtain ⟨h1, h2, h3, h4⟩ := I.kept hx
  apply hm
  have hu := W.uptr_ge c
  rcases h4 with h4 | ⟨k, hk, hne, h5, h6⟩
  · by_contra hcx
    obtain ⟨g, hg, hcg⟩ := hc.1
    exact h4 (AHeap.segAt_ext W hg (Seg.mem_ext hcg) (by omega) (by omega))
  · have := W.has_disj hk.1 hc.1 hne
    have := W.uptr_ge k
    omega

/-- The step does not depend on the queue. -/
theorem SInv.setQ {pb : Nat} {s : CS Light} {A : AHeap} {O L : List (Nat × Nat)} {P : Res} (I : SInv pb s A O L P) (h t : Nat) :
    SInv pb { s with c := { s.c with rfqHead := h, rfqTail := t } } A O L P :=
  ⟨⟨I.ch.wf, I.ch.pool, I.ch.mem, I.ch.dead, I.ch.lock, I.ch.base, I.ch.src, I.ch.handler, I.ch.region, I.ch.cnt,
    I.ch.seg, I.ch.own, I.ch.noAdj, I.ch.room⟩, I.lin, I.reg, I.pool, I.resU, I.resD, I.ext⟩

/-! ## The remote free queue -/

/-- The list of the entries from address `p`: `next` at offset 0, the pointer of the block at offset 8; an entry
is at the start of its block. -/
def QList (m : Mem) : Nat → List Ck → Prop
  | p, [] => p = 0
  | p, k :: l => p = k.uptr ∧ readLE m (p + 8) 8 = p ∧ QList m (readLE m p 8) l

/-- The remote free queue of the chain holds the chunks `Q`. -/
structure QAt (s : CS Light) (A : AHeap) (Q : List Ck) : Prop where
  list : QList s.w.mem s.c.rfqHead Q
  tail : s.c.rfqTail = (Q.getLast?.map Ck.uptr).getD 0
  used : ∀ k ∈ Q, A.Used k
  nodup : Q.Nodup

theorem QList.congr {m m' : Mem} : ∀ {p : Nat} {Q : List Ck}, QList m p Q →
    (∀ k ∈ Q, ∀ x, k.uptr ≤ x → x < k.uptr + 16 → m' x = m x) → QList m' p Q
  | _, [], h, _ => h
  | p, k :: l, h, hm => by
    obtain ⟨rfl, h1, h2⟩ := h
    have h0 := hm k List.mem_cons_self
    refine ⟨rfl, ?_, ?_⟩
    · rw [← h1]
      conv => rhs; rw [h1]
      rw [h1]
      exact (readLE_congr (fun x a b => h0 x (by omega) (by omega))).trans h1
    · rw [readLE_congr (m := m) (m' := m') (fun x a b => h0 x (by omega) (by omega))]
      exact h2.congr (fun j hj => hm j (List.mem_cons_of_mem _ hj))

theorem QList.nz {m : Mem} {pb : Nat} {A : AHeap} (W : A.WF pb) {p : Nat} : ∀ {Q : List Ck}, QList m p Q →
    (∀ k ∈ Q, A.Used k) → (p = 0 ↔ Q = [])
  | [], h, _ => ⟨fun _ => rfl, fun _ => h⟩
  | k :: l, h, hu => by
    have h1 := W.has_range (hu k List.mem_cons_self).1
    have h2 := W.uptr_ge k
    have h3 := h.1
    exact ⟨fun h0 => by omega, fun h0 => by simp at h0⟩

/-- Linking one more entry at the end. -/
theorem QList.snoc {m m' : Mem} {k0 k : Ck} (h8 : readLE m' (k0.uptr + 8) 8 = readLE m (k0.uptr + 8) 8)
    (h0 : readLE m' k0.uptr 8 = k.uptr) (hk : QList m' k.uptr [k]) : ∀ {l : List Ck} {p : Nat},
    QList m p (l ++ [k0]) → (∀ j ∈ l, ∀ x, j.uptr ≤ x → x < j.uptr + 16 → m' x = m x) →
    QList m' p (l ++ [k0] ++ [k])
  | [], p, h, _ => by
    obtain ⟨rfl, h1, h2⟩ := h
    refine ⟨rfl, by rw [h8]; exact h1, ?_⟩
    rw [h0]
    exact hk
  | j :: l, p, h, hm => by
    obtain ⟨rfl, h1, h2⟩ := h
    have h3 := hm j List.mem_cons_self
    refine ⟨rfl, (readLE_congr (fun x a b => h3 x (by omega) (by omega))).trans h1, ?_⟩
    rw [readLE_congr (m := m) (m' := m') (fun x a b => h3 x (by omega) (by omega))]
    exact QList.snoc h8 h0 hk h2 (fun j hj => hm j (List.mem_cons_of_mem _ hj))

theorem uptr_lt {pb : Nat} {A : AHeap} {k : Ck} (W : A.WF pb) (hk : A.Used k)
    (hr : k.uptr + 16 ≤ k.addr + k.size) : k.uptr + 16 < W64 ∧ 0 < k.uptr := by
  have h1 := W.has_range hk.1
  have h2 := W.uptr_ge k
  omega

theorem write_outside {m : Mem} {a n v x : Nat} (h : x < a ∨ a + n ≤ x) : writeLE m a n v x = m x :=
  writeLE_other h

/-- A remote free: the block is added to the queue. -/
theorem rfqRegister_ok {pb : Nat} {s : CS Light} {A : AHeap} {O L : List (Nat × Nat)} {P : Res} {Q : List Ck} {k : Ck}
    (I : SInv pb s A O L P) (q : QAt s A Q) (hk : A.Used k) (hkQ : k ∉ Q) :
    ∃ s', rfqRegister s k.uptr = .ok s' ∧ SStep pb s A O L P (fun j => j ≠ k ∧ j ∉ Q) s' A L ∧ QAt s' A (Q ++ [k]) ∧
      s'.c.status = s.c.status := by
  have W := I.ch.wf
  have hroom := I.ch.room k hk
  obtain ⟨hlt, hpos⟩ := uptr_lt W hk hroom
  obtain ⟨v, e1, e2, e3⟩ := getChunk_used W I.ch.mem hk
  have e1' : getChunk s.w.mem k.uptr = .ok v := e1
  have hr := W.has_range hk.1
  have hu := W.uptr_ge k
  unfold rfqRegister
  rw [if_neg (by omega), e1', Outcome.ok_bind, if_neg (by omega)]
  generalize hm1 : writeLE (writeLE s.w.mem (k.uptr + 8) 8 k.uptr) k.uptr 8 0 = m1
  generalize hm2 : writeLE m1 k.uptr 8 0 = m2
  have hm2o : ∀ x, x < k.uptr ∨ k.uptr + 16 ≤ x → m2 x = s.w.mem x := by
    intro x hx
    rw [← hm2, writeLE_other (by omega), ← hm1, writeLE_other (by omega), writeLE_other (by omega)]
  have hent : ∀ m' : Mem, (∀ x, k.uptr ≤ x → x < k.uptr + 16 → m' x = m2 x) → QList m' k.uptr [k] := by
    intro m' hm'
    refine ⟨rfl, ?_, ?_⟩
    · rw [readLE_congr (m := m2) (fun x a b => hm' x (by omega) (by omega)), ← hm2,
        readLE_writeLE_other (by omega), ← hm1, readLE_writeLE_other (by omega), readLE_writeLE_same]
      exact Nat.mod_eq_of_lt (by omega)
    · show readLE m' k.uptr 8 = 0
      rw [readLE_congr (m := m2) (fun x a b => hm' x (by omega) (by omega)), ← hm2, readLE_writeLE_same]
  have S1 : SStep pb s A O L P (fun j => j ≠ k) (s.setMem m2) A L :=
    I.store hk (fun x hx => hm2o x (by omega))
  have hdisj : ∀ j ∈ Q, j.addr + j.size ≤ k.addr ∨ k.addr + k.size ≤ j.addr := by
    intro j hj
    have hne : j ≠ k := fun h => hkQ (h ▸ hj)
    have := W.has_disj (q.used j hj).1 hk.1 hne
    omega
  cases hQ : Q.getLast? with
  | none =>
    have hQ0 : Q = [] := List.getLast?_eq_none_iff.1 hQ
    have ht : s.c.rfqTail = 0 := by rw [q.tail, hQ]; rfl
    refine ⟨_, rfl, ?_⟩
    have heq : queueInsert (s.setMem m1) k.uptr =
        { (s.setMem m2) with c := { s.c with rfqHead := k.uptr, rfqTail := k.uptr } } := by
      unfold queueInsert
      have ht' : (s.setMem m1).c.rfqTail = 0 := ht
      simp only [ht', if_true]
      show ({ w := { s.w with mem := writeLE m1 k.uptr 8 0 }, c := _ } : CS Light) = _
      rw [hm2]; rfl
    rw [heq]
    have I2 := S1.inv.setQ k.uptr k.uptr
    refine ⟨⟨I2, fun j hj _ => hj, rfl, ⟨rfl, rfl⟩, ?_⟩, ⟨?_, ?_, ?_, ?_⟩, rfl⟩
    · intro x hx
      refine S1.frame x ?_
      rcases hx with h | h | ⟨j, hj, hxj, h3⟩
      exacts [Or.inl h, Or.inr (Or.inl h), Or.inr (Or.inr ⟨j, hj, hxj.1, h3⟩)]
    · rw [hQ0]
      exact hent m2 (fun _ _ _ => rfl)
    · rw [hQ0]; rfl
    · rw [hQ0]; simpa using hk
    · rw [hQ0]; simp
  | some k0 =>
    obtain ⟨l, hl⟩ := List.getLast?_eq_some_iff.1 hQ
    have hk0 : k0 ∈ Q := by rw [hl]; simp
    have hk0u := q.used k0 hk0
    have hroom0 := I.ch.room k0 hk0u
    obtain ⟨hlt0, hpos0⟩ := uptr_lt W hk0u hroom0
    have hu0 := W.uptr_ge k0
    have hd0 := hdisj k0 hk0
    have ht : s.c.rfqTail = k0.uptr := by rw [q.tail, hQ]; rfl
    generalize hm3 : writeLE m2 k0.uptr 8 k.uptr = m3
    refine ⟨_, rfl, ?_⟩
    have heq : queueInsert (s.setMem m1) k.uptr =
        { (s.setMem m3) with c := { s.c with rfqTail := k.uptr } } := by
      unfold queueInsert
      have ht' : (s.setMem m1).c.rfqTail = k0.uptr := ht
      have hne : ¬ k0.uptr = 0 := by omega
      simp only [ht', hne, if_false]
      show ({ w := { s.w with mem := writeLE (writeLE m1 k.uptr 8 0) k0.uptr 8 k.uptr }, c := _ } : CS Light) = _
      rw [hm2, hm3]; rfl
    rw [heq]
    have S2 : SStep pb (s.setMem m2) A O L P (fun j => j ≠ k0) (s.setMem m3) A L :=
      S1.inv.store hk0u (fun x hx => by rw [← hm3]; exact writeLE_other (by omega))
    have S := S1.trans S2 (X := fun j => j ≠ k ∧ j ∉ Q) (fun j hj => ⟨hj.1, fun h => hj.2 (h ▸ hk0)⟩)
    have I2 := S.inv.setQ s.c.rfqHead k.uptr
    refine ⟨⟨I2, fun j hj _ => hj, rfl, ⟨rfl, rfl⟩, S.frame⟩, ⟨?_, ?_, ?_, ?_⟩, rfl⟩
    · show QList m3 s.c.rfqHead (Q ++ [k])
      have hlist := q.list
      have hnd := q.nodup
      rw [hl] at hlist hnd ⊢
      have h3o : ∀ x, (x < k0.uptr ∨ k0.uptr + 8 ≤ x) → m3 x = m2 x := fun x hx => by
        rw [← hm3]; exact writeLE_other hx
      refine QList.snoc ?_ ?_ (hent m3 (fun x a b => h3o x (by omega))) hlist ?_
      · refine readLE_congr (fun x a b => ?_)
        rw [h3o x (by omega), hm2o x (by omega)]
      · rw [← hm3, readLE_writeLE_same]; exact Nat.mod_eq_of_lt (by omega)
      · intro j hj x a b
        have hjQ : j ∈ Q := by rw [hl]; simp [hj]
        have hd := hdisj j hjQ
        have hrj := I.ch.room j (q.used j hjQ)
        have huj := W.uptr_ge j
        have hne : j ≠ k0 := by
          rintro rfl
          exact (List.nodup_append.1 hnd).2.2 j hj j (by simp) rfl
        have hd2 := W.has_disj (q.used j hjQ).1 hk0u.1 hne
        rw [h3o x (by omega), hm2o x (by omega)]
    · rw [List.getLast?_append]; simp
    · intro j hj
      rcases List.mem_append.1 hj with hj | hj
      · exact q.used j hj
      · rw [List.mem_singleton] at hj; rw [hj]; exact hk
    · rw [List.nodup_append]
      refine ⟨q.nodup, by simp, ?_⟩
      intro a ha b hb hab
      rw [List.mem_singleton] at hb
      exact hkQ (by rw [← hb, ← hab]; exact ha)

/-- The chaining of the queue is complete. -/
theorem waitEnd_ok {m : Mem} {pb : Nat} {A : AHeap} (W : A.WF pb) {tail : Nat} : ∀ {Q : List Ck} {p : Nat},
    QList m p Q → (∀ k ∈ Q, A.Used k) → Q ≠ [] → tail = (Q.getLast?.map Ck.uptr).getD 0 →
    waitEnd m p tail = .ok ()
  | [], _, _, _, h, _ => absurd rfl h
  | [k], p, h, _, _, ht => by
    rw [waitEnd, if_pos (by rw [ht, h.1]; rfl)]
  | k :: j :: l, p, h, hu, _, ht => by
    have hnz : p ≠ 0 := fun h0 => by
      have := (QList.nz W h hu).1 h0
      simp at this
    have hnz2 : readLE m p 8 ≠ 0 := fun h0 => by
      have := (QList.nz W h.2.2 (fun i hi => hu i (List.mem_cons_of_mem _ hi))).1 h0
      simp at this
    rw [waitEnd]
    by_cases hp : p = tail
    · rw [if_pos hp]
    · rw [if_neg hp, if_neg hnz, if_pos hnz2]
      refine waitEnd_ok W h.2.2 (fun i hi => hu i (List.mem_cons_of_mem _ hi)) (by simp) ?_
      rw [ht, List.getLast?_cons_cons]

/-- Effect of draining the queue. -/
structure SPurge (pb : Nat) (s : CS Light) (A : AHeap) (O L : List (Nat × Nat)) (P : Res) (Q : List Ck) (s' : CS Light)
    (A' : AHeap) (L' : List (Nat × Nat)) : Prop where
  step : SStep pb s A O L P (fun k => k ∉ Q) s' A' L'
  back : ∀ x, A'.Used x → A.Used x ∧ (x ∈ Q → Leak x)
  busy : s.c.noMerge = false → A.Busy → A'.Busy
  osLe : s'.w.src.os.Le s.w.src.os

theorem purgeLoop_ok {C : Config} {pb : Nat} {O : List (Nat × Nat)} {P : Res} : ∀ {Q : List Ck} {s : CS Light} {A : AHeap}
    {L : List (Nat × Nat)} {p : Nat}, SInv pb s A O L P → QList s.w.mem p Q → (∀ k ∈ Q, A.Used k) → Q.Nodup →
    ∃ s' A' L', purgeLoop (lightSource C) C s p = .ok s' ∧ SPurge pb s A O L P Q s' A' L' ∧
      s'.c.rfqHead = s.c.rfqHead ∧ s'.c.rfqTail = s.c.rfqTail
  | [], s, A, L, p, I, h, _, _ => by
    have h : p = 0 := h
    refine ⟨s, A, L, by rw [purgeLoop, if_pos h], ⟨.refl I _, fun x hx => ⟨hx, by simp⟩, fun _ h => h, .refl _⟩, rfl, rfl⟩
  | k :: l, s, A, L, p, I, h, hu, hnd => by
    have hnz : p ≠ 0 := fun h0 => by
      have := (QList.nz I.ch.wf h hu).1 h0
      simp at this
    obtain ⟨hp, h1, h2⟩ := h
    have hk := hu k List.mem_cons_self
    obtain ⟨s1, A1, L1, e1, F⟩ := sfree_ok (C := C) I hk
    have hkl : k ∉ l := (List.nodup_cons.1 hnd).1
    have hne : ∀ j ∈ l, j ≠ k := fun j hj h => hkl (h ▸ hj)
    have S1 := F.step I
    have hq1 : QList s1.w.mem (readLE s.w.mem p 8) l := by
      refine h2.congr (fun j hj x a b => S1.frame x ?_)
      have := I.ch.room j (hu j (List.mem_cons_of_mem _ hj))
      exact Or.inr (Or.inr ⟨j, hu j (List.mem_cons_of_mem _ hj), hne j hj, a, by omega⟩)
    obtain ⟨s2, A2, L2, e2, R, r1, r2⟩ := purgeLoop_ok (C := C) S1.inv hq1
      (fun j hj => (F.used j (hne j hj)).2 (hu j (List.mem_cons_of_mem _ hj))) (List.nodup_cons.1 hnd).2
    refine ⟨s2, A2, L2, ?_, ⟨?_, ?_, ?_, R.osLe.trans F.osLe⟩, ?_, ?_⟩
    · rw [purgeLoop, if_neg hnz]
      rw [h1, hp, e1, Outcome.ok_bind, ← hp]
      exact e2
    · exact S1.trans R.step (fun j hj => ⟨fun h => hj (by rw [h]; exact List.mem_cons_self),
        fun h => hj (List.mem_cons_of_mem _ h)⟩)
    · intro x hx
      obtain ⟨b1, b2⟩ := R.back x hx
      by_cases hxk : x = k
      · subst hxk
        refine ⟨hk, fun _ => ?_⟩
        by_contra hl
        exact F.gone hl b1
      · refine ⟨(F.used x hxk).1 b1, fun hm => ?_⟩
        rcases List.mem_cons.1 hm with h | h
        · exact absurd h hxk
        · exact b2 h
    · intro hn hB
      exact R.busy (by rw [S1.flag.2]; exact hn) (F.busy hn hB)
    · rw [r1, F.chain]
    · rw [r2, F.chain]

/-- Draining the queue of a chain. -/
theorem purge_ok {C : Config} {pb : Nat} {s : CS Light} {A : AHeap} {O L : List (Nat × Nat)} {P : Res} {Q : List Ck}
    (I : SInv pb s A O L P) (q : QAt s A Q) :
    ∃ s' A' L', purgeRfq (lightSource C) C s = .ok s' ∧ SPurge pb s A O L P Q s' A' L' ∧ QAt s' A' [] := by
  have W := I.ch.wf
  unfold purgeRfq
  rw [if_neg (by simp [I.ch.dead])]
  by_cases h0 : s.c.rfqHead = 0
  · have hQ := (QList.nz W q.list q.used).1 h0
    subst hQ
    refine ⟨s, A, L, by rw [if_pos h0], ⟨.refl I _, fun x hx => ⟨hx, by simp⟩, fun _ h => h, .refl _⟩, q⟩
  · rw [if_neg h0]
    have hQ : Q ≠ [] := fun h => h0 ((QList.nz W q.list q.used).2 h)
    obtain ⟨s', A', L', e, R, r1, r2⟩ := purgeLoop_ok (C := C) (I.setQ 0 0) (p := s.c.rfqHead) q.list q.used q.nodup
    refine ⟨s', A', L', ?_, ⟨⟨R.step.inv, R.step.keep, R.step.addr, R.step.flag, R.step.frame⟩, R.back, R.busy, R.osLe⟩, ?_⟩
    · simp only
      rw [waitEnd_ok W q.list q.used hQ q.tail, Outcome.ok_bind]
      exact e
    · exact ⟨r1, r2, by simp, by simp⟩
/-- The beginning of `sctk_alloc_chain_realloc` for a used chunk. -/
theorem srealloc_start {C : Config} {pb : Nat} {s : CS Light} {A : AHeap} {O L : List (Nat × Nat)} {P : Res} {c : Ck} {hook n : Nat}
    (I : SInv pb s A O L P) (hc : A.Used c) (hn : n ≠ 0) (hfac : C.reallocFactor ≠ 0) :
    chainRealloc (lightSource C) C hook s c.uptr n =
      (if n ≤ c.size - 16 ∧ sub64 (c.size - 16) n ≤ C.reallocThreshold ∧
          sub64 (c.size - 16) n ≤ (c.size - 16) / C.reallocFactor then .ok (s, c.uptr)
      else do
        let (s, res) ← chainAlloc (lightSource C) hook s n
        let s ← (if res ≠ 0 then do
            let m ← memCopy s.w.mem res c.uptr (if c.size - 16 < n then c.size - 16 else n)
            pure (s.setMem m)
          else pure s)
        let s ← chainFree (lightSource C) C s c.uptr
        return (s, res)) := by
  have W := I.ch.wf
  have hr := W.has_range hc.1
  have hge := (W.has_wf hc.1).ge
  have hu := W.uptr_ge c
  have hold : sub64 c.size 16 = c.size - 16 := sub64_eq (by omega) (by omega)
  obtain ⟨v, e1, e2, e3⟩ := getChunk_used W I.ch.mem hc
  have e1' : getChunk s.w.mem c.uptr = .ok v := e1
  have e3' : getUnpaddedSize s.w.mem v = .ok c.size := e3
  unfold chainRealloc
  rw [if_neg (by omega), if_neg (by omega), if_neg hn, e1', Outcome.ok_bind, if_pos e2, e3', Outcome.ok_bind]
  simp only
  rw [hold, if_neg (by omega)]
  rfl

theorem reallocKeep_iff {C : Config} {c : Ck} {n : Nat} (h : c.size < W64) :
    (n ≤ c.size - 16 ∧ sub64 (c.size - 16) n ≤ C.reallocThreshold ∧
      sub64 (c.size - 16) n ≤ (c.size - 16) / C.reallocFactor) ↔ ReallocKeep C c n := by
  unfold ReallocKeep
  constructor
  · rintro ⟨h1, h2, h3⟩
    rw [sub64_eq h1 (by omega)] at h2 h3
    exact ⟨h1, h2, h3⟩
  · rintro ⟨h1, h2, h3⟩
    rw [sub64_eq h1 (by omega)]
    exact ⟨h1, h2, h3⟩

/-- A resize that moves the block `c` to `d`. -/
structure SMove (pb : Nat) (s : CS Light) (A : AHeap) (O L : List (Nat × Nat)) (P : Res) (hook n : Nat) (c d : Ck) (s' : CS Light)
    (A' : AHeap) (L' : List (Nat × Nat)) : Prop where
  step : SStep pb s A O L P (fun k => k ≠ c) s' A' L'
  usedD : A'.Used d
  fresh : ¬ A.Used d
  disj : d.addr + d.size ≤ c.addr ∨ c.addr + c.size ≤ d.addr
  ne : d.uptr ≠ 0
  fit : d.uptr + n ≤ d.addr + d.size
  align : 1 < hook → hook ∣ d.uptr
  align16 : hook ≤ 1 → 16 ∣ d.uptr
  noPad : hook ≤ 1 → d.st = .used none
  noLeak : ((calcChunkSize (alignedSize hook n) ≤ 1048576 → cutSize (alignedSize hook n) ≤ 1048544)) → ¬ Leak d
  kind : (calcChunkSize (alignedSize hook n) ≤ 1048576 ∧ d.size < cutSize (alignedSize hook n) + 32) ∨
    (1048576 < calcChunkSize (alignedSize hook n) ∧ d.size = blocSize (alignedSize hook n) - 48)
  back : ∀ x, A'.Used x → x = d ∨ (A.Used x ∧ (x = c → Leak c))
  busy : s.c.noMerge = false → A.Busy → A'.Busy
  queue : s'.c.rfqHead = s.c.rfqHead ∧ s'.c.rfqTail = s.c.rfqTail
  copy : ∀ i, i < min (c.size - 16) n → s'.w.mem (d.uptr + i) = s.w.mem (c.uptr + i)

theorem SAlloc.noLeak {pb : Nat} {s s' : CS Light} {A A' : AHeap} {O L L' : List (Nat × Nat)} {P : Res} {b n : Nat} {d : Ck}
    (R : SAlloc pb s A O L P b n d s' A' L')
    (h : calcChunkSize (alignedSize b n) ≤ 1048576 → cutSize (alignedSize b n) ≤ 1048544) : ¬ Leak d := by
  rintro ⟨h1, h2⟩
  have hd : A'.Used d := (R.used d).2 (Or.inr rfl)
  have hw := R.inv.ch.wf.has_wf hd.1
  have h32 := hw.ge
  rcases R.kind with ⟨k1, k2⟩ | ⟨_, k2⟩
  · have := h k1
    have := hw.dvd
    have e : cutSize (alignedSize b n) % 16 = 0 := by unfold cutSize; omega
    omega
  · have := blocSize_facts (alignedSize b n)
    omega

theorem srealloc_ok {C : Config} {pb : Nat} {s : CS Light} {A : AHeap} {O L : List (Nat × Nat)} {P : Res} {c : Ck} {hook n : Nat}
    (I : SInv pb s A O L P) (hc : A.Used c) (hn : n ≠ 0) (hfac : C.reallocFactor ≠ 0) (hb : GoodBound hook)
    (hlt : alignedSize hook n + 48 + MB2 ≤ W64) (hfit : Fits (alignedSize hook n)) (hsafe : ReallocSafe c n) :
    (ReallocKeep C c n ∧ chainRealloc (lightSource C) C hook s c.uptr n = .ok (s, c.uptr)) ∨
    ((∃ k, k ≤ alignedSize hook n + 32 ∧ Refused C s L k) ∧ chainRealloc (lightSource C) C hook s c.uptr n = .ub) ∨
    ∃ s' d A' L', chainRealloc (lightSource C) C hook s c.uptr n = .ok (s', d.uptr) ∧
      SMove pb s A O L P hook n c d s' A' L' := by
  have W := I.ch.wf
  have hr := W.has_range hc.1
  rw [srealloc_start I hc hn hfac]
  by_cases hk : ReallocKeep C c n
  · left
    refine ⟨hk, ?_⟩
    rw [if_pos ((reallocKeep_iff (by omega)).2 hk)]
  right
  rw [if_neg (fun h => hk ((reallocKeep_iff (by omega)).1 h))]
  unfold chainAlloc
  rcases salloc_ok (C := C) I hb hn hlt hfit with ⟨h1, h2⟩ | ⟨s1, d, A1, L1, e1, R⟩
  · left
    refine ⟨h1, ?_⟩
    rw [h2]; rfl
  right
  have S1 := R.step I (fun _ => True)
  have W1 := R.inv.ch.wf
  have hcU1 : A1.Used c := (R.used c).2 (Or.inl hc)
  have hdU1 : A1.Used d := (R.used d).2 (Or.inr rfl)
  have hdc : d ≠ c := by rintro rfl; exact R.fresh hc
  have hdisj := W1.has_disj hdU1.1 hcU1.1 hdc
  have hdu := W1.uptr_ge d
  have hu := W.uptr_ge c
  have hfd := R.fit
  have hmin : (if c.size - 16 < n then c.size - 16 else n) = min (c.size - 16) n := by
    split <;> omega
  unfold ReallocSafe at hsafe
  obtain ⟨m2, e2, cp, f2⟩ := memCopy_ok (m := s1.w.mem) (dst := d.uptr) (src := c.uptr) (n := min (c.size - 16) n) (by omega)
  have S2 : SStep pb s1 A1 O L1 P (fun k => k ≠ d) (s1.setMem m2) A1 L1 :=
    R.inv.store hdU1 (fun x hx => f2 x (by omega))
  obtain ⟨s3, A3, L3, e3, F⟩ := sfree_ok (C := C) S2.inv hcU1
  have S3 := F.step S2.inv
  have hdU3 : A3.Used d := (F.used d hdc).2 hdU1
  have hS : SStep pb s A O L P (fun k => k ≠ c) s3 A3 L3 := by
    refine ⟨S3.inv, fun k hk hkc => (F.used k hkc).2 ((R.used k).2 (Or.inl hk)), ?_, ?_, ?_⟩
    · rw [S3.addr, S2.addr, S1.addr]
    · rw [S3.flag.1, S3.flag.2, S2.flag.1, S2.flag.2]; exact S1.flag
    · intro x hx
      have a1 : SKeep pb A O P (fun _ => True) x := by
        rcases hx with h | h | ⟨k, hk, hxk, h3⟩
        exacts [Or.inl h, Or.inr (Or.inl h), Or.inr (Or.inr ⟨k, hk, trivial, h3⟩)]
      have a2 : SKeep pb A1 O P (fun k => k ≠ d) x := by
        rcases hx with h | h | ⟨k, hk, hxk, h3⟩
        exacts [Or.inl h, Or.inr (Or.inl h), Or.inr (Or.inr ⟨k, (R.used k).2 (Or.inl hk),
          (by rintro rfl; exact R.fresh hk), h3⟩)]
      have a3 : SKeep pb A1 O P (fun k => k ≠ c) x := by
        rcases hx with h | h | ⟨k, hk, hxk, h3⟩
        exacts [Or.inl h, Or.inr (Or.inl h), Or.inr (Or.inr ⟨k, (R.used k).2 (Or.inl hk), hxk, h3⟩)]
      rw [S3.frame x a3, S2.frame x a2, S1.frame x a1]
  refine ⟨s3, d, A3, L3, ?_, ⟨hS, hdU3, R.fresh, hdisj, R.nz, R.fit, R.align, R.align16, R.noPad, R.noLeak, R.kind, ?_, ?_, ?_, ?_⟩⟩
  · rw [e1, Outcome.ok_bind]
    simp only
    rw [if_pos R.nz, hmin, e2, Outcome.ok_bind, Outcome.pure_eq, Outcome.ok_bind, e3, Outcome.ok_bind]
    rfl
  · intro x hx
    by_cases hxd : x = d
    · exact Or.inl hxd
    right
    by_cases hxc : x = c
    · refine ⟨by rw [hxc]; exact hc, fun _ => ?_⟩
      by_contra hl
      exact F.gone hl (by rw [← hxc]; exact hx)
    · exact ⟨((R.used x).1 ((F.used x hxc).1 hx)).resolve_right hxd, fun h => absurd h hxc⟩
  · intro h0 hB
    exact F.busy (by rw [S2.flag.2, S1.flag.2]; exact h0) (R.busy hB)
  · have h1 := F.chain
    have h2 := R.chain
    constructor
    · rw [h1]; show s1.c.rfqHead = _; rw [h2]
    · rw [h1]; show s1.c.rfqTail = _; rw [h2]
  · intro i hi
    have a3 : SKeep pb A1 O P (fun k => k ≠ c) (d.uptr + i) := Or.inr (Or.inr ⟨d, hdU1, hdc, by omega, by omega⟩)
    have a1 : SKeep pb A O P (fun _ => True) (c.uptr + i) := Or.inr (Or.inr ⟨c, hc, trivial, by omega, by omega⟩)
    rw [S3.frame _ a3]
    show m2 (d.uptr + i) = _
    rw [cp i hi, S1.frame _ a1]
end MpcAlloc
