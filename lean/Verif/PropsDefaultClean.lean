import Verif.PropsDefault

/-!
C84: the clean-up of a default source gives back its heap, and nothing else.
-/

namespace MpcAlloc

/-! ## Specification -/

/-- The addresses of `A` are given back to the kernel, and all others stay as they are. -/
def GivenBack (o o' : Os) (A : Nat → Prop) : Prop := ∀ x, (A x → o'.used x = false) ∧ (¬ A x → o'.used x = o.used x)

/-! ## Lemmas -/

theorem defaultInit_heap {w w' : DW} {d : DSource} {pb base size : Nat} (e : defaultInit w pb base size = .ok (w', d)) :
    d.heapAddr = base ∧ d.heapSize = size ∧ d.lock = false := by
  unfold defaultInit at e
  split at e
  · cases e
  split at e
  · cases e
  obtain ⟨R, _, e⟩ := Outcome.bind_eq_ok e
  obtain ⟨⟨w1, P, st⟩, _, e⟩ := Outcome.bind_eq_ok e
  obtain ⟨_, rfl⟩ := Prod.mk.inj (Outcome.ok.inj e)
  exact ⟨rfl, rfl, rfl⟩

/-! ## Properties -/

/-- C84, what the clean-up does: after any use of the process it ends normally, leaves the bytes as they are, deletes the region of
the heap, and gives back the heap and the page behind it. Missing: that the page behind the heap is left alone
(`C84_refuted`). -/
theorem C84_cleanup_partial {w w' v : DW} {d : DSource} {pb base size : Nat} (H : DHeap pb base size)
    (e : defaultInit w pb base size = .ok (w', d)) :
    ∃ v', defaultCleanup v d = .ok v' ∧ v'.mem = v.mem ∧
      (∀ p, v'.regs.mapped p = if p = base / TB1 then false else v.regs.mapped p) ∧
      GivenBack v.os v'.os (fun x => base ≤ x ∧ x < base + size + 4096) := by
  obtain ⟨h1, h2, h3⟩ := defaultInit_heap e
  have hs := (C37_refuted H e).1
  subst hs
  have g1 := H.bmul; have g2 := H.hi; have := H.bpos
  have hR : dCleanLoop v.regs (base + MB2) base = .ok (regionDel v.regs (base / TB1)) := by
    rw [dCleanLoop, if_pos (by omega), if_neg (by omega), add64_eq (by omega), dCleanLoop, if_neg (by omega)]
  have hp : pageUp (MB2 + 4096) = MB2 + 4096 := rfl
  refine ⟨{ v with regs := regionDel v.regs (base / TB1), os := munmap v.os base (MB2 + 4096) }, ?_, rfl, fun p => ?_, fun x => ?_⟩
  · unfold defaultCleanup
    rw [h1, h2, h3, if_neg (by simp), add64_eq (by omega), hR, Outcome.ok_bind, add64_eq (by omega)]
    rfl
  · simp only [regionDel]
    by_cases hp : v.regs.mapped (base / TB1) = true
    · rw [if_pos hp]
    · rw [if_neg hp]
      split
      · rename_i h; rw [h]; simpa using hp
      · rfl
  · unfold munmap
    simp only
    rw [if_pos ⟨by omega, by omega⟩, hp]
    simp only
    constructor
    · intro h; rw [if_pos (by omega)]
    · intro h; rw [if_neg (by omega)]

/-- C84 is false of the code: the clean-up also unmaps the page behind the heap, whoever mapped it. -/
theorem C84_refuted {w w' v v' : DW} {d : DSource} {pb base size x : Nat} (H : DHeap pb base size)
    (e : defaultInit w pb base size = .ok (w', d)) (e2 : defaultCleanup v d = .ok v') (h1 : base + size ≤ x)
    (h2 : x < base + size + 4096) (hu : v.os.used x = true) :
    v'.os.used x = false ∧ ¬ GivenBack v.os v'.os (fun x => base ≤ x ∧ x < base + size) := by
  obtain ⟨v1, e1, _, _, g⟩ := C84_cleanup_partial (v := v) H e
  obtain rfl : v1 = v' := Outcome.ok.inj (e1.symm.trans e2)
  have hx := (g x).1 ⟨by omega, h2⟩
  refine ⟨hx, fun h => ?_⟩
  have := (h x).2 (by omega)
  rw [hx, hu] at this
  cases this

/-- Hypotheses of the theorems: a heap of 2 MB at 64 MB, with pages of others behind it. -/
example : ∃ (w w' : DW) (d : DSource), DHeap 4096 67108864 MB2 ∧ defaultInit w 4096 67108864 MB2 = .ok (w', d) := by
  have H : DHeap 4096 67108864 MB2 := ⟨by omega, by omega, by omega, by omega, by omega, by omega, by omega, by omega⟩
  obtain ⟨w', d, e, _⟩ := C37_init_partial (w := ⟨fun _ => 0, Regions.empty, ⟨fun k => if k = 0 then 67108864 else 67108864 + (MB2 - 4096), 0,
    fun _ => true⟩⟩) H rfl rfl
  exact ⟨_, w', d, H, e⟩

/-- The page behind the heap is lost: `used` is any set of pages here, all of them for instance. -/
example : ∃ (w w' v v' : DW) (d : DSource), defaultInit w 4096 67108864 MB2 = .ok (w', d) ∧ defaultCleanup v d = .ok v' ∧
    v.os.used (67108864 + MB2) = true ∧ v'.os.used (67108864 + MB2) = false := by
  have H : DHeap 4096 67108864 MB2 := ⟨by omega, by omega, by omega, by omega, by omega, by omega, by omega, by omega⟩
  obtain ⟨w', d, e, _⟩ := C37_init_partial (w := ⟨fun _ => 0, Regions.empty, ⟨fun k => if k = 0 then 67108864 else 67108864 + (MB2 - 4096), 0,
    fun _ => true⟩⟩) H rfl rfl
  obtain ⟨v', e', _⟩ := C84_cleanup_partial (v := { w' with os := ⟨w'.os.ans, w'.os.k, fun _ => true⟩ }) H e
  exact ⟨_, w', _, v', d, e, e', rfl, (C84_refuted H e e' (by omega) (by omega) rfl).1⟩

end MpcAlloc
