import Verif.DefaultSource
import Verif.ChainInit

/-
Properties of the default memory source (C37): the class table of the code has two missing commas, so that the source serves
nothing.
-/

namespace MpcAlloc

/-- The binary search in the table of the default source never ends above 2 MB. -/
theorem mms_stuck {size : Nat} (h1 : MB2 < size) (h2 : size < W63) :
    getFreeListSlow mmsFreeSizes 44 size = .diverge := by
  have step : ∀ p seg i : Nat, 0 < p + i → (∃ a, tblGet mmsFreeSizes ((p : Int) + i - 1) = .ok a) →
      (∃ b, tblGet mmsFreeSizes ((p : Int) + i) = .ok b ∧ b < (size : Int)) →
      slowLoop mmsFreeSizes (toS size) p seg i = slowLoop mmsFreeSizes (toS size) (p + i) (seg - i) ((seg - i) / 2) := by
    intro p seg i _ ⟨a, ha⟩ ⟨b, hb, hlt⟩
    conv => lhs; rw [slowLoop]
    rw [ha, Outcome.ok_bind, hb, Outcome.ok_bind, toS_eq h2, if_pos (Or.inr hlt), if_pos hlt]
  unfold getFreeListSlow
  rw [show tblGet mmsFreeSizes 0 = .ok 2097152 from rfl, Outcome.ok_bind, toS_eq h2, if_neg (by omega), ← toS_eq h2]
  rw [step 0 44 (44 / 2) (by omega) ⟨_, rfl⟩ ⟨_, rfl, by omega⟩]
  rw [step 22 22 11 (by omega) ⟨_, rfl⟩ ⟨_, rfl, by omega⟩]
  rw [step 33 11 5 (by omega) ⟨_, rfl⟩ ⟨_, rfl, by omega⟩]
  rw [step 38 6 3 (by omega) ⟨_, rfl⟩ ⟨_, rfl, by omega⟩]
  rw [step 41 3 1 (by omega) ⟨_, rfl⟩ ⟨_, rfl, by omega⟩]
  rw [step 42 2 1 (by omega) ⟨_, rfl⟩ ⟨_, rfl, by omega⟩]
  exact slowLoop_stuck (p := 43) (a := -1) (b := -2) rfl rfl (by rw [toS_eq h2]; omega)

theorem mms_first {size : Nat} (h1 : size ≤ MB2) : getFreeListSlow mmsFreeSizes 44 size = .ok 0 := by
  unfold getFreeListSlow
  rw [show tblGet mmsFreeSizes 0 = .ok 2097152 from rfl, Outcome.ok_bind, toS_eq (by omega), if_pos (by omega)]
  rfl

theorem mms_nb : initNb mmsFreeSizes = .ok 44 := by decide


theorem mms_pool (m : Mem) (pb : Nat) : threadPoolInit m pb mmsFreeSizes false =
    .ok (⟨initHeads m pb 48, fun _ => false⟩, ⟨pb, mmsFreeSizes, 44, false⟩) := by
  unfold threadPoolInit
  rw [mms_nb, Outcome.ok_bind, Outcome.pure_eq]

/-- Insertion of the only bloc of a heap, in the first list. -/
theorem mms_insert {m : Mem} {pb base : Nat} (hp : 0 < pb) (hp2 : pb + 1536 < W64) (hb : 0 < base) (hb2 : base + MB2 < W64)
    (hd : pb + 1536 ≤ base ∨ base + MB2 ≤ pb) (hs : hSize m base = MB2 - 4096) :
    ∃ h, freeListInsert ⟨pb, mmsFreeSizes, 44, false⟩ ⟨initHeads m pb 48, fun _ => false⟩ base true = .ok h ∧
      Links h.mem pb [base] pb ∧ hSize h.mem base = MB2 - 4096 ∧ h.status = setStatus (fun _ => false) 0 true := by
  obtain ⟨i1, i2⟩ := initHeads_spec (m := m) (base := pb) 48 (by omega)
  have hl : Links (initHeads m pb 48) pb [] pb := by simpa using i1 0 (by omega)
  have hsz : hSize (initHeads m pb 48) base = MB2 - 4096 := by
    rw [← hs]
    unfold hSize
    exact readLE_congr (fun x h1 h2 => i2 x (by omega))
  have hl' : Links (setState (initHeads m pb 48) (base + 15) SFREE) pb [] pb := by
    refine ⟨?_, ?_⟩
    · rw [getNext_setState (by unfold Sep; omega)]; exact hl.1
    · rw [getPrev_setState (by unfold Sep; omega)]; exact hl.2
  obtain ⟨m', e, hL, hO⟩ := linkChunk_end (f := base) hl' ⟨by
      intro a ha b hb' hne
      simp only [List.mem_cons, List.not_mem_nil, or_false] at ha hb'
      unfold Sep
      omega, by
      intro a ha
      simp only [List.mem_cons, List.not_mem_nil, or_false] at ha
      omega, by
      intro a ha
      simp only [List.mem_cons, List.not_mem_nil, or_false] at ha
      omega⟩ (by
      simp only [List.nodup_cons, List.mem_cons, List.not_mem_nil, or_false, not_false_eq_true, List.nodup_nil, and_true]
      omega)
  refine ⟨⟨m', setStatus (fun _ => false) 0 true⟩, ?_, hL, ?_, rfl⟩
  · unfold freeListInsert insertIdx getFreeList
    simp only
    rw [hsz, if_neg (by simp), mms_first (by omega), Outcome.ok_bind, show tblGet mmsFreeSizes 0 = .ok 2097152 from rfl,
      Outcome.ok_bind, if_neg (by simp), Outcome.pure_eq, Outcome.ok_bind, if_neg (by omega)]
    simp only [Pool.head, Int.toNat_zero, Nat.mul_zero, Nat.add_zero]
    rw [e]
    rfl
  · have : AgreeOn (initHeads m pb 48) m' base 7 := by
      intro x h1 h2
      rw [hO x (by
        intro a ha
        simp only [List.mem_cons, List.not_mem_nil, or_false] at ha
        omega), setState_other (by omega)]
    unfold hSize
    rw [readLE_congr this]
    exact hsz

theorem mmapFixed_cases (m : Mem) (o : Os) {a n : Nat} (h0 : a % 4096 = 0) (h1 : 0 < n) (h2 : a + pageUp n ≤ 140737488355328) :
    ((mmapFixed m o a n).2.2 = W64 - 1 ∧ o.ans o.k ≠ a) ∨
      ((mmapFixed m o a n).2.2 = a ∧ (mmapFixed m o a n).2.1.ans = o.ans ∧ (mmapFixed m o a n).2.1.k = o.k + 1) := by
  unfold mmapFixed
  by_cases h : o.ans o.k = a
  · rw [if_pos ⟨h, h0, h1, h2⟩]; exact Or.inr ⟨rfl, rfl, rfl⟩
  · rw [if_neg (fun g => h g.1)]; exact Or.inl ⟨rfl, h⟩

/-- A heap of the source: a multiple of 2 MB, below 2^47 as every user address, apart from the structure of the source. -/
structure DHeap (pb base size : Nat) : Prop where
  bmul : base % MB2 = 0
  smul : size % MB2 = 0
  bpos : 0 < base
  spos : 0 < size
  hi : base + size ≤ 140737488355328
  ppos : 0 < pb
  plt : pb + 1536 < W64
  apart : pb + 1536 ≤ base ∨ base + size ≤ pb

/-- What the insertion of a segment comes to once the checks passed. -/
theorem dInsert_cases {w : DW} {pb base size : Nat} (H : DHeap pb base size) :
    (dInsertSegment w pb base size = .abort ∧ ¬ (base / TB1 = (base + size - 1) / TB1 ∧ w.os.ans w.os.k = base ∧
        w.os.ans (w.os.k + 1) = base + (size - 4096))) ∨ ∃ m o, hSize m base = size - 4096 ∧
      dInsertSegment w pb base size = (do
        let h ← freeListInsert ⟨pb, mmsFreeSizes, 44, false⟩ ⟨initHeads m pb 48, fun _ => false⟩ base true
        return (⟨writeLE h.mem (base + 32) 4 0, w.regs, o⟩, ⟨pb, mmsFreeSizes, 44, false⟩, h.status)) := by
  obtain ⟨b1, s1, b0, s0, hi, p0, pl, ap⟩ := H
  have hp : pageUp 4096 = 4096 := rfl
  have hs : MB2 ≤ size := by omega
  obtain ⟨z, hz⟩ : ∃ z, z = size - 4096 := ⟨_, rfl⟩
  unfold dInsertSegment
  rw [if_neg (by omega), if_neg (by omega), add64_eq (by omega), sub64_eq (by omega) (by omega),
    sub64_eq (a := size) (by omega) (by omega), ← hz]
  unfold sameRegion
  rw [if_neg (by omega), Outcome.ok_bind]
  split
  · rename_i hr
    left
    refine ⟨rfl, fun h => ?_⟩
    rw [h.1] at hr
    simp at hr
  have c1 := mmapFixed_cases w.mem w.os (a := base) (n := 4096) (by omega) (by omega) (by omega)
  rcases h1 : mmapFixed w.mem w.os base 4096 with ⟨m1, o1, a1⟩
  rw [h1] at c1
  simp only at c1 ⊢
  rcases c1 with ⟨c1, g1⟩ | ⟨c1, g1, g2⟩
  · rw [if_pos c1]
    exact Or.inl ⟨rfl, fun h => g1 h.2.1⟩
  rw [c1, if_neg (by omega), add64_eq (by omega)]
  have c2 := mmapFixed_cases m1 o1 (a := base + z) (n := 4096) (by omega) (by omega) (by omega)
  rcases h2 : mmapFixed m1 o1 (base + z) 4096 with ⟨m2, o2, a2⟩
  rw [h2] at c2
  simp only at c2 ⊢
  rcases c2 with ⟨c2, g3⟩ | ⟨c2, _, _⟩
  · rw [if_pos c2]
    refine Or.inl ⟨rfl, fun h => g3 ?_⟩
    rw [g1, g2]
    exact h.2.2
  rw [c2, if_neg (by omega)]
  right
  unfold setupChunk
  simp only
  rw [mms_pool, Outcome.ok_bind]
  refine ⟨createStopper (setupLargeHeader m2 base z 0) (base + z) base, o2, ?_, ?_⟩
  · have := (setupLargeHeader_hdr m2 base z 0).size
    rw [Nat.mod_eq_of_lt (by omega)] at this
    refine Eq.trans ?_ this
    unfold hSize
    exact readLE_congr (fun x h3 h4 => createStopper_other (by omega))
  · have hv : vLarge (largeToV base) = base := by
      unfold largeToV
      rw [add64_eq (by omega), vLarge_eq (by omega)]
    simp only
    rw [hv]

theorem mms_insert_big {h : Heap} {pb base : Nat} (h1 : MB2 < hSize h.mem base) (h2 : hSize h.mem base < W63) :
    freeListInsert ⟨pb, mmsFreeSizes, 44, false⟩ h base true = .diverge := by
  unfold freeListInsert insertIdx getFreeList
  simp only
  rw [if_neg (by simp), mms_stuck h1 h2]
  rfl

/-- Everything about a heap of 2 MB. -/
theorem dInit_one {w w' : DW} {d : DSource} {pb base : Nat} (H : DHeap pb base MB2)
    (e : defaultInit w pb base MB2 = .ok (w', d)) :
    d.pool = ⟨pb, mmsFreeSizes, 44, false⟩ ∧ d.lock = false ∧ d.status = setStatus (fun _ => false) 0 true ∧
      Links w'.mem pb [base] pb ∧ hSize w'.mem base = MB2 - 4096 := by
  have h1 := H.bmul; have h2 := H.hi; have h3 := H.apart; have := H.bpos; have := H.ppos; have := H.plt
  unfold defaultInit at e
  rw [if_neg (by omega), if_neg (by omega)] at e
  obtain ⟨R, _, e⟩ := Outcome.bind_eq_ok e
  obtain ⟨⟨w1, P, st⟩, e1, e⟩ := Outcome.bind_eq_ok e
  cases e
  rcases dInsert_cases (w := { w with regs := R }) H with ⟨h, _⟩ | ⟨m, o, hm, h⟩
  · rw [h] at e1; cases e1
  rw [h] at e1
  obtain ⟨hh, e2, hL, hS, hst⟩ := mms_insert (m := m) H.ppos H.plt H.bpos (by omega) H.apart hm
  rw [e2] at e1
  cases e1
  refine ⟨rfl, rfl, hst, ?_, ?_⟩
  · refine links_frame hL ?_ ?_
    · intro n hn
      simp only [List.mem_cons, List.not_mem_nil, or_false] at hn
      unfold getNext
      rw [readLE_writeLE_other (by omega)]
    · intro n hn
      simp only [List.mem_cons, List.not_mem_nil, or_false, List.cons_append, List.nil_append] at hn
      unfold getPrev
      rw [readLE_writeLE_other (by omega)]
  · rw [← hS]
    unfold hSize
    exact readLE_congr (fun x h3 h4 => writeLE_other (by omega))


/-- C37 is false of the code: whatever the size of the heap and the answers of the kernel, no request of a positive number
of macro blocs is served. If the source could be initialised at all, a request of 2 MB gets NULL (and changes nothing), and a
larger one never returns. -/
theorem C37_refuted {w w' : DW} {d : DSource} {pb base size : Nat} (H : DHeap pb base size)
    (e : defaultInit w pb base size = .ok (w', d)) :
    size = MB2 ∧ defaultRequest w' d MB2 = .ok (w', d, 0) ∧
      ∀ k, 2 ≤ k → k * MB2 < W63 → defaultRequest w' d (k * MB2) = .diverge := by
  have hsz : size = MB2 := by
    by_contra hne
    have h1 := H.bmul; have h2 := H.hi; have h3 := H.apart; have := H.spos; have := H.smul; have := H.plt
    unfold defaultInit at e
    rw [if_neg (by omega), if_neg (by omega)] at e
    obtain ⟨R, _, e⟩ := Outcome.bind_eq_ok e
    obtain ⟨⟨w1, P, st⟩, e1, _⟩ := Outcome.bind_eq_ok e
    rcases dInsert_cases (w := { w with regs := R }) H with ⟨h, _⟩ | ⟨m, o, hm, h⟩
    · rw [h] at e1; cases e1
    have hg : hSize (initHeads m pb 48) base = size - 4096 := by
      rw [← hm]
      unfold hSize
      exact readLE_congr (fun x h1 h2 => (initHeads_spec 48 (by omega)).2 x (by omega))
    rw [h, mms_insert_big (by simp only; omega) (by simp only; omega)] at e1
    cases e1
  subst hsz
  obtain ⟨hP, hl, hst, hL, hS⟩ := dInit_one H e
  have h1 := H.bmul; have h2 := H.hi; have h3 := H.apart; have := H.bpos; have := H.ppos; have := H.plt
  refine ⟨rfl, ?_, ?_⟩
  · obtain ⟨P, st, lk, ha, hz⟩ := d
    simp only at hP hl hst
    subst hP hl hst
    unfold defaultRequest
    rw [if_neg (by omega), if_neg (by simp), show sub64 MB2 16 = MB2 - 16 from rfl]
    unfold findFreeChunk getFreeList
    simp only
    rw [show calcChunkSize (MB2 - 16) = MB2 from rfl, if_neg (by simp), mms_first (by omega), Outcome.ok_bind, if_neg (by omega)]
    have hf : firstNonEmpty (setStatus (fun _ => false) 0 true) (Int.toNat 0) 44 = some 0 := by decide
    have hA : findAdapted w'.mem pb MB2 = .ok 0 := by
      unfold findAdapted
      rw [findLoop_spec hL (by simp; omega), toS_eq (by omega)]
      simp [hS, toS_eq (show 2093056 < W63 by omega)]
    rw [hf]
    simp only [Pool.head, Nat.mul_zero, Nat.add_zero, hA]
    rfl
  · intro k hk hW
    unfold defaultRequest
    rw [if_neg (by omega), hl, if_neg (by simp)]
    unfold findFreeChunk getFreeList
    rw [hP]
    simp only
    have : calcChunkSize (sub64 (k * MB2) 16) = k * MB2 := by
      rw [sub64_eq (by omega) (by omega)]
      unfold calcChunkSize
      rw [add64_eq (by omega)]
      simp only
      rw [if_neg (by omega)]
      omega
    rw [this, if_neg (by simp), mms_stuck (by omega) hW]
    rfl
/-- Initialisation never returns on a heap of at least 4 MB: it loops for ever once the kernel has mapped the two pages of
headers. -/
theorem C37_refuted_init {w : DW} {pb base size : Nat} (H : DHeap pb base size) (hs : MB2 < size) :
    (∀ r, defaultInit w pb base size ≠ .ok r) ∧
      (base / TB1 = (base + size - 1) / TB1 → w.os.ans w.os.k = base →
        w.os.ans (w.os.k + 1) = base + (size - 4096) → defaultInit w pb base size = .diverge) := by
  refine ⟨fun ⟨w', d⟩ e => ?_, ?_⟩
  · have := (C37_refuted H e).1
    omega
  intro h0 h1 h2
  have g1 := H.bmul; have g2 := H.hi; have g3 := H.apart; have := H.smul; have := H.plt
  unfold defaultInit
  rw [if_neg (by omega), if_neg (by omega), add64_eq (by omega)]
  have hR : dRegionLoop w.regs (base + size) base = .ok (regionSetup w.regs (base / TB1)) := by
    rw [dRegionLoop, if_pos (by omega), if_neg (by omega), add64_eq (by omega), dRegionLoop, if_neg (by omega)]
  rw [hR, Outcome.ok_bind]
  rcases dInsert_cases (w := { w with regs := regionSetup w.regs (base / TB1) }) H with ⟨_, hn⟩ | ⟨m, o, hm, h⟩
  · exact absurd ⟨h0, h1, h2⟩ hn
  · have hg : hSize (initHeads m pb 48) base = size - 4096 := by
      rw [← hm]
      unfold hSize
      exact readLE_congr (fun x h1 h2 => (initHeads_spec 48 (by omega)).2 x (by omega))
    rw [h, mms_insert_big (by simp only; omega) (by simp only; omega)]
    rfl

/-- Met by a heap of 32 MB at 64 MB. -/
example : DHeap 4096 67108864 33554432 ∧ 67108864 / TB1 = (67108864 + 33554432 - 1) / TB1 := by
  exact ⟨⟨by omega, by omega, by omega, by omega, by omega, by omega, by omega, by omega⟩, by omega⟩

/-- C37, for heaps of 2 MB: initialisation ends normally when the kernel maps the two pages of headers. -/
theorem C37_init_partial {w : DW} {pb base : Nat} (H : DHeap pb base MB2) (h1 : w.os.ans w.os.k = base)
    (h2 : w.os.ans (w.os.k + 1) = base + (MB2 - 4096)) :
    ∃ w' d, defaultInit w pb base MB2 = .ok (w', d) ∧ d.heapAddr = base ∧ d.heapSize = MB2 := by
  have g1 := H.bmul; have g2 := H.hi; have g3 := H.apart; have := H.bpos; have := H.ppos; have := H.plt
  unfold defaultInit
  rw [if_neg (by omega), if_neg (by omega), add64_eq (by omega)]
  have hR : dRegionLoop w.regs (base + MB2) base = .ok (regionSetup w.regs (base / TB1)) := by
    rw [dRegionLoop, if_pos (by omega), if_neg (by omega), add64_eq (by omega), dRegionLoop, if_neg (by omega)]
  rw [hR, Outcome.ok_bind]
  have hp : pageUp 4096 = 4096 := rfl
  have hi : ∃ r, dInsertSegment { w with regs := regionSetup w.regs (base / TB1) } pb base MB2 = .ok r := by
    rcases dInsert_cases (w := { w with regs := regionSetup w.regs (base / TB1) }) H with ⟨_, hn⟩ | ⟨m, o, hm, h⟩
    · exact absurd ⟨by omega, h1, h2⟩ hn
    · obtain ⟨hh, e2, _⟩ := mms_insert (m := m) H.ppos H.plt H.bpos (by omega) H.apart hm
      rw [h, e2]
      exact ⟨_, rfl⟩
  obtain ⟨r, e⟩ := hi
  rw [e]
  exact ⟨_, _, rfl, rfl, rfl⟩

/-- A kernel that maps the pages of headers of a heap of 2 MB at 64 MB. -/
def osDefault : Os := ⟨fun k => if k = 0 then 67108864 else 67108864 + (MB2 - 4096), 0, fun _ => false⟩

/-- The hypotheses of `C37_refuted` and `C37_init_partial` are met by a heap of 2 MB. -/
example : ∃ w' d, defaultInit ⟨fun _ => 0, Regions.empty, osDefault⟩ 4096 67108864 MB2 = .ok (w', d) ∧
    defaultRequest w' d MB2 = .ok (w', d, 0) := by
  have H : DHeap 4096 67108864 MB2 := ⟨by omega, by omega, by omega, by omega, by omega, by omega, by omega, by omega⟩
  obtain ⟨w', d, e, _⟩ := C37_init_partial (w := ⟨fun _ => 0, Regions.empty, osDefault⟩) H rfl rfl
  exact ⟨w', d, e, (C37_refuted H e).2.1⟩

end MpcAlloc
