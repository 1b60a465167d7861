import Verif.RegionTso

/-
C70: the tables of the regions on processors that delay stores. The tables are read without a lock, and a table is made at the
first use of its region: a thread that knows of a bloc finds it all the same, does not take the lock, and meets no other table.
-/

namespace MpcAlloc
open RegionTso

/-- A thread that knows of the registration of the bloc `b` in the entry `k`, which stands, reads `b` there. -/
theorem C70_found {τ : T} (h : Reach true τ) {t k r b id : Nat} (hs : τ.std k = some (b, id)) (ht : τ.seen t id)
    (hp : τ.pc t = some (.look k, .use r)) : τ.read t (.ent r (k % N)) = b ∧ b ≠ 0 := by
  have I := h.inv
  have hc : τ.cell k = .ent r (k % N) := I.useCell hp
  obtain ⟨g1, g2, _⟩ := I.val k b id hs
  rw [← hc]
  exact ⟨((I.seen t id ht).2.2 k b hs).1.2.trans g2, g1⟩

/-- It finds the table at its first read: it does not wait for the lock of the regions and maps nothing. -/
theorem C70_no_lock {τ : T} (h : Reach true τ) {t k b id : Nat} (hs : τ.std k = some (b, id)) (ht : τ.seen t id) :
    τ.read t (.reg (k / N)) ≠ 0 := by
  have I := h.inv
  rw [I.sees ((I.seen t id ht).2.2 k b hs).2]
  intro h0
  rw [I.noT k h0] at hs
  cases hs

/-- A registration finds its entry free: the code does not abort. -/
theorem C70_no_abort {τ : T} (h : Reach true τ) (t : Nat) : ¬ τ.Aborts t := by
  rintro ⟨k, b, r, hp, hr⟩
  have I := h.inv
  have hc : τ.cell k = .ent r (k % N) := I.useCell hp
  have g := I.knows t _ _ hp
  have h0 : τ.tab (k / N) ≠ 0 := fun h' => g.2.1 (g.1.trans h')
  obtain ⟨_, g2, g3, g4, _⟩ := I.has t _ _ hp
  apply hr
  rw [← hc]
  exact (g3 h0).2.trans (I.zero k h0 g2 g4)

/-- A removal finds its bloc in the entry. -/
theorem C70_removed {τ : T} (h : Reach true τ) {t k b r : Nat} (hp : τ.pc t = some (.unset k b, .use r)) :
    τ.read t (.ent r (k % N)) = b := by
  have I := h.inv
  have hc : τ.cell k = .ent r (k % N) := I.useCell hp
  obtain ⟨_, _, _, g4, g5, _⟩ := I.has t _ _ hp
  rw [← hc]
  exact g4.2.trans g5

/-- Whatever a search reads in an entry, by any thread at any time, is 0 or a bloc that was registered in this entry. -/
theorem C70_answer {τ τ' : T} (h : Reach true τ) {k v : Nat} (hs : Step true τ (some (k, v)) τ') :
    v = 0 ∨ (k, v) ∈ τ.hist := by
  have I := h.inv
  have V := h.vals
  cases hs with
  | look hp =>
    rename_i t r
    have hc : τ.cell k = .ent r (k % N) := I.useCell hp
    have g := I.knows t _ _ hp
    have h0 : τ.tab (k / N) ≠ 0 := fun h' => g.2.1 (g.1.trans h')
    rw [← hc]
    unfold T.read
    rcases view_cases (τ.buf t) τ.mem (τ.cell k) with h' | h'
    · rw [h']; exact V.mem k h0
    · exact V.buf k h0 t _ h'

/-- All threads that read a table of a region read the same one. -/
theorem C70_same_table {τ : T} (h : Reach true τ) (t u i : Nat) (ht : τ.read t (.reg i) ≠ 0) (hu : τ.read u (.reg i) ≠ 0) :
    τ.read t (.reg i) = τ.read u (.reg i) := by
  have I := h.inv
  rcases I.reads t i with h1 | ⟨h1, _⟩
  · exact absurd h1 ht
  · rcases I.reads u i with h2 | ⟨h2, _⟩
    · exact absurd h2 hu
    · rw [h1, h2]

/-- One table is made for a region, whatever the number of threads that need it. -/
theorem C70_one_table {τ : T} (h : Reach true τ) : τ.maps.Nodup := h.vals.nodup

/-- Two threads are never both between the lock and the unlock of `sctk_alloc_region_setup`. -/
theorem C70_exclusive {τ : T} (h : Reach true τ) {t u : Nat} {o o' : Op} {c c' : Stage} (ht : τ.pc t = some (o, c))
    (hu : τ.pc u = some (o', c')) (hc : c = .check ∨ c = .map ∨ (∃ r, c = .publish r) ∨ ∃ r, c = .unlock r)
    (hc' : c' = .check ∨ c' = .map ∨ (∃ r, c' = .publish r) ∨ ∃ r, c' = .unlock r) : t = u := by
  have hold : ∀ c : Stage, (c = .check ∨ c = .map ∨ (∃ r, c = .publish r) ∨ ∃ r, c = .unlock r) → c.Holds := by
    rintro c (rfl | rfl | ⟨r, rfl⟩ | ⟨r, rfl⟩) <;> trivial
  refine Classical.byContradiction fun hne => ?_
  exact (h.inv.one t o c ht (hold c hc)).1 u (fun h => hne h.symm) o' c' hu (hold c' hc')

/-! ### Runs -/

/-- The thread 0 registers the bloc 7 in the entry 5; its stores are delayed. -/
theorem regTsoRun1 (fifo : Bool) : ∃ τ, Reach fifo τ ∧
    τ.buf 0 = [.data (.reg 0) 1, .unlock, .data (.ent 1 5) 7, .send 3 1] ∧ (∀ u, u ≠ 0 → τ.buf u = []) ∧
    τ.std 5 = some (7, 1) ∧ τ.seen 0 1 ∧ (∀ u, τ.pc u = none) ∧ (∀ a, τ.mem a = 0) ∧ (∀ c, τ.box c = 0) ∧ τ.lock = 1 := by
  have R1 : Reach fifo (start.go 0 (some (.set 5 7, .get))) :=
    .step .start (.call (t := 0) (o := .set 5 7) rfl ⟨by decide, rfl, fun u b c => ⟨fun h => (by cases h), fun h => (by cases h)⟩,
      fun u _ ⟨v, hv⟩ => (by cases hv)⟩)
  have R2 := Reach.step R1 (.get (t := 0) (o := .set 5 7) rfl)
  have R3 := Reach.step R2 (.acquire (t := 0) (o := .set 5 7) rfl rfl)
  have R4 := Reach.step R3 (.check (t := 0) (o := .set 5 7) rfl)
  have R5 := Reach.step R4 (.map (t := 0) (o := .set 5 7) rfl)
  have R6 := Reach.step R5 (.publish (t := 0) (o := .set 5 7) (r := 1) rfl)
  have R7 := Reach.step R6 (.unlock (t := 0) (o := .set 5 7) (r := 1) rfl)
  have R8 := Reach.step R7 (.set (t := 0) (k := 5) (b := 7) (r := 1) rfl rfl)
  have R9 := Reach.step R8 (.send (t := 0) (c := 3) (id := 1) (Or.inl ⟨rfl, rfl⟩))
  refine ⟨_, R9, rfl, ?_, rfl, Or.inl ⟨rfl, rfl⟩, ?_, ?_, fun c => rfl, rfl⟩
  · intro u hu
    simp [T.push, T.go, T.store, upd, hu, start, T.mapped]
  · intro u
    simp only [T.push, T.go, T.store, upd, start, T.mapped]
    by_cases hu : u = 0 <;> simp [hu]
  · intro a
    cases a with
    | reg i => rfl
    | ent r e =>
      show (if r = 1 then 0 else 0) = 0
      split <;> rfl

/-- A search for the entry 5 by the thread 1, in a state where the store of the table is in memory and the thread was told. -/
theorem regTsoRun2 {fifo : Bool} {τ : T} (h : Reach fifo τ) (hb : ∀ u, u ≠ 0 → τ.buf u = []) (hpc : ∀ u, τ.pc u = none)
    (hm : τ.mem (.reg 0) = 1) (hx : τ.box 3 = 1) : ∃ τ', Reach fifo τ' ∧ τ'.std = τ.std ∧ τ'.seen 1 1 ∧
    τ'.pc 1 = some (.look 5, .use 1) ∧ τ'.read 1 (.ent 1 5) = τ.mem (.ent 1 5) := by
  have hb1 := hb 1 (by decide)
  have hr : readBox (τ.buf 1) τ.box 3 = 1 := by rw [hb1]; exact hx
  have R1 := Reach.step h (.recv (t := 1) (c := 3) (by rw [hr]; decide))
  have R2 := Reach.step R1 (.call (t := 1) (o := .look 5) (hpc 1) trivial)
  have R3 := Reach.step R2 (.get (t := 1) (o := .look 5) rfl)
  refine ⟨_, R3, rfl, Or.inl ⟨rfl, hr.symm⟩, ?_, ?_⟩
  · have : view (τ.buf 1) τ.mem (.reg 0) = 1 := by rw [hb1]; exact hm
    show some (Op.look 5, if view (τ.buf 1) τ.mem (.reg (5 / 524288)) = 0 then Stage.acquire else
      Stage.use (view (τ.buf 1) τ.mem (.reg (5 / 524288)))) = _
    rw [show 5 / 524288 = 0 from rfl, this]
    rfl
  · show view (τ.buf 1) τ.mem _ = _
    rw [hb1]; rfl

/-- The hypotheses of `C70_found` are met: the stores of the thread 0 arrive in order, the thread 1 is told and searches. -/
theorem regTsoRun3 : ∃ τ, Reach true τ ∧ τ.std 5 = some (7, 1) ∧ τ.seen 1 1 ∧ τ.pc 1 = some (.look 5, .use 1) ∧
    τ.read 1 (.ent 1 5) = 7 := by
  obtain ⟨τ, R, h1, h2, h3, h4, h5, h6, h7, h8⟩ := regTsoRun1 true
  have R1 := Reach.step R (.flush (t := 0) (l1 := []) h1 fun _ => rfl)
  have R2 := Reach.step R1 (.flush (t := 0) (l1 := []) (w := .unlock) (l2 := [.data (.ent 1 5) 7, .send 3 1]) rfl fun _ => rfl)
  have R3 := Reach.step R2 (.flush (t := 0) (l1 := []) (w := .data (.ent 1 5) 7) (l2 := [.send 3 1]) rfl fun _ => rfl)
  have R4 := Reach.step R3 (.flush (t := 0) (l1 := []) (w := .send 3 1) (l2 := []) rfl fun _ => rfl)
  obtain ⟨τ', R', g1, g2, g3, g4⟩ := regTsoRun2 R4 (by
    intro u hu
    simp [W.apply, upd, hu, h2 u hu]) h5 (by simp [W.apply, upd]) (by simp [W.apply, upd])
  refine ⟨τ', R', by rw [g1]; exact h3, g2, g3, ?_⟩
  rw [g4]; simp [W.apply, upd]

example : ∃ τ, Reach true τ ∧ τ.std 5 = some (7, 1) ∧ τ.seen 1 1 ∧ τ.pc 1 = some (.look 5, .use 1) := by
  obtain ⟨τ, h1, h2, h3, h4, _⟩ := regTsoRun3
  exact ⟨τ, h1, h2, h3, h4⟩

/-- If stores may arrive in another order than they were executed, a thread that knows of the registration reads 0. -/
theorem C70_refuted_order : ∃ τ t k r b id, Reach false τ ∧ τ.std k = some (b, id) ∧ τ.seen t id ∧
    τ.pc t = some (.look k, .use r) ∧ τ.read t (.ent r (k % N)) ≠ b := by
  obtain ⟨τ, R, h1, h2, h3, h4, h5, h6, h7, h8⟩ := regTsoRun1 false
  have R1 := Reach.step R (.flush (t := 0) (l1 := []) h1 fun h => (by cases h))
  have R2 := Reach.step R1 (.flush (t := 0) (l1 := [.unlock, .data (.ent 1 5) 7]) (w := .send 3 1) (l2 := []) rfl
    fun h => (by cases h))
  obtain ⟨τ', R', g1, g2, g3, g4⟩ := regTsoRun2 R2 (by
    intro u hu
    simp [W.apply, upd, hu, h2 u hu]) h5 (by simp [W.apply, upd]) (by simp [W.apply, upd])
  refine ⟨τ', 1, 5, 1, 7, 1, R', by rw [g1]; exact h3, g2, g3, ?_⟩
  show τ'.read 1 (.ent 1 5) ≠ 7
  rw [g4]
  simp [W.apply, upd, h6]

/-- If stores may arrive in another order, two tables are made for a region. -/
theorem C70_refuted_tables : ∃ τ, Reach false τ ∧ ¬ τ.maps.Nodup := by
  have R1 : Reach false (start.go 0 (some (.look 5, .get))) := .step .start (.call (t := 0) (o := .look 5) rfl trivial)
  have R2 := Reach.step R1 (.get (t := 0) (o := .look 5) rfl)
  have R3 := Reach.step R2 (.acquire (t := 0) (o := .look 5) rfl rfl)
  have R4 := Reach.step R3 (.check (t := 0) (o := .look 5) rfl)
  have R5 := Reach.step R4 (.map (t := 0) (o := .look 5) rfl)
  have R6 := Reach.step R5 (.publish (t := 0) (o := .look 5) (r := 1) rfl)
  have R7 := Reach.step R6 (.unlock (t := 0) (o := .look 5) (r := 1) rfl)
  have R8 := Reach.step R7 (.flush (t := 0) (l1 := [.data (.reg 0) 1]) (w := .unlock) (l2 := []) rfl fun h => (by cases h))
  have R9 := Reach.step R8 (.call (t := 1) (o := .look 5) rfl trivial)
  have R10 := Reach.step R9 (.get (t := 1) (o := .look 5) rfl)
  have R11 := Reach.step R10 (.acquire (t := 1) (o := .look 5) rfl rfl)
  have R12 := Reach.step R11 (.check (t := 1) (o := .look 5) rfl)
  have R13 := Reach.step R12 (.map (t := 1) (o := .look 5) rfl)
  have R14 := Reach.step R13 (.publish (t := 1) (o := .look 5) (r := 2) rfl)
  refine ⟨_, R14, ?_⟩
  show ¬ [0, 0].Nodup
  decide

/-- The condition on the delayed stores of a removal is needed: with only the other conditions a registration by another thread
aborts, also when stores arrive in order. -/
theorem C70_refuted_removal : ∃ τ : T, Reach true τ ∧ τ.std 5 = none ∧ (∀ u, τ.pc u = none) ∧
    (τ.go 1 (some (.set 5 9, .use 1))).Aborts 1 := by
  obtain ⟨τ, R, h1, h2, h3, h4, h5, h6, h7, h8⟩ := regTsoRun1 true
  have R1 := Reach.step R (.flush (t := 0) (l1 := []) h1 fun _ => rfl)
  have R2 := Reach.step R1 (.flush (t := 0) (l1 := []) (w := .unlock) (l2 := [.data (.ent 1 5) 7, .send 3 1]) rfl fun _ => rfl)
  have R3 := Reach.step R2 (.flush (t := 0) (l1 := []) (w := .data (.ent 1 5) 7) (l2 := [.send 3 1]) rfl fun _ => rfl)
  have R4 := Reach.step R3 (.flush (t := 0) (l1 := []) (w := .send 3 1) (l2 := []) rfl fun _ => rfl)
  generalize eσ : (W.send 3 1).apply _ = σ at R4
  have s1 : σ.buf 0 = [] := by rw [← eσ]; rfl
  have s2 : σ.buf 1 = [] := by rw [← eσ]; simp [W.apply, upd, h2 1 (by decide)]
  have s3 : σ.std 5 = some (7, 1) := by rw [← eσ]; exact h3
  have s4 : σ.seen 0 1 := by rw [← eσ]; exact h4
  have s5 : ∀ u, σ.pc u = none := by rw [← eσ]; exact h5
  have s6 : σ.mem (.reg 0) = 1 := by rw [← eσ]; simp [W.apply, upd]
  have s7 : σ.mem (.ent 1 5) = 7 := by rw [← eσ]; simp [W.apply, upd]
  clear eσ
  have R5 := Reach.step R4 (.call (t := 0) (o := .unset 5 7) (s5 0) ⟨1, s3, s4⟩)
  have R6 := Reach.step R5 (.get (t := 0) (o := .unset 5 7) rfl)
  have hv : view (σ.buf 0) σ.mem (.reg 0) = 1 := by rw [s1]; exact s6
  generalize eρ : T.go _ _ _ = ρ at R6
  have r0 : ρ.pc 0 = some (.unset 5 7, .use 1) := by
    rw [← eρ]
    show some (Op.unset 5 7, if view (σ.buf 0) σ.mem (.reg (5 / 524288)) = 0 then Stage.acquire else
      Stage.use (view (σ.buf 0) σ.mem (.reg (5 / 524288)))) = _
    rw [show 5 / 524288 = 0 from rfl, hv]
    rfl
  have r1 : ρ.buf = σ.buf := by rw [← eρ]; rfl
  have r2 : ρ.mem = σ.mem := by rw [← eρ]; rfl
  have r3 : ρ.std 5 = none := by rw [← eρ]; rfl
  have r4 : ∀ u, u ≠ 0 → ρ.pc u = none := by
    intro u hu
    rw [← eρ]; simp [T.go, T.begin, upd, hu, s5]
  clear eρ
  have R7 := Reach.step R6 (.unset (t := 0) (k := 5) (b := 7) (r := 1) r0 (by
    show view (ρ.buf 0) ρ.mem (.ent 1 5) = 7
    rw [r1, r2, s1]; exact s7))
  refine ⟨_, R7, r3, ?_, 5, 9, 1, rfl, ?_⟩
  · intro u
    by_cases e : u = 0
    · subst e; rfl
    · simp [T.go, T.store, T.push, upd, e, r4 u e]
  · show view ((upd ρ.buf 0 (ρ.buf 0 ++ [.data (.ent 1 5) 0])) 1) ρ.mem (.ent 1 5) ≠ 0
    rw [upd_ne (by decide), r1, r2, s2]
    show σ.mem (.ent 1 5) ≠ 0
    rw [s7]; decide

end MpcAlloc
