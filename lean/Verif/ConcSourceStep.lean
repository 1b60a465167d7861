import Verif.ConcSourceInv

/-
The steps of ConcSource.lean keep the invariant of ConcSourceInv.lean, and what they do to the lock word.
-/

namespace MpcAlloc
namespace OnNode

/-- The thread has the lock. -/
def holds : Pc → Bool
  | .crit _ => true
  | .unlockA .. => true
  | .unlockF _ => true
  | _ => false

/-- The thread waits for the lock. -/
def wants : Pc → Bool
  | .swap _ => true
  | .load _ => true
  | _ => false

/-- A bound for the number of steps that are left in the call once the lock is free. -/
def left : Pc → Nat
  | .idle => 0
  | .swap (.alloc ..) => 10
  | .swap (.free ..) => 3
  | .load (.alloc ..) => 11
  | .load (.free ..) => 4
  | .crit (.alloc ..) => 9
  | .crit (.free ..) => 2
  | .unlockA .. => 8
  | .hugeReq .. => 10
  | .hugeLoad .. => 9
  | .hugeStore .. => 8
  | .pad .. => 7
  | .copy .. => 6
  | .freeRead .. => 5
  | .unlockF _ => 1
  | .hugeFree .. => 3
  | .cntLoad _ => 2
  | .cntStore .. => 1
  | .resize .. => 12

/-- What a step of `t` does to the positions and to the lock word. -/
def Moves (k k' : KS Light) (t : Nat) : Prop :=
  ∃ p', k'.pc = pcSet k.pc t p' ∧
    ((k'.s.c.lock = k.s.c.lock ∧ holds p' = holds (k.pc t)) ∨
      (k.s.c.lock = false ∧ k'.s.c.lock = true ∧ holds p' = true) ∨
      (holds (k.pc t) = true ∧ k'.s.c.lock = false ∧ holds p' = false)) ∧
    (k.pc t = .idle ∨ (k.s.c.lock = true ∧ wants (k.pc t) = true) ∨ left p' < left (k.pc t))

theorem Moves.same {k k' : KS Light} {t : Nat} {p p' : Pc} (hp : k.pc t = p) (hpc : k'.pc = pcSet k.pc t p')
    (hl : k'.s.c.lock = k.s.c.lock) (hh : holds p' = holds p) (hlt : left p' < left p) : Moves k k' t :=
  ⟨p', hpc, Or.inl ⟨hl, by rw [hp]; exact hh⟩, Or.inr (Or.inr (by rw [hp]; exact hlt))⟩

theorem Moves.begin {k k' : KS Light} {t : Nat} {p' : Pc} (hp : k.pc t = .idle) (hpc : k'.pc = pcSet k.pc t p')
    (hl : k'.s.c.lock = k.s.c.lock) (hh : holds p' = false) : Moves k k' t :=
  ⟨p', hpc, Or.inl ⟨hl, by rw [hp]; exact hh⟩, Or.inl hp⟩

theorem pcSet_self {f : Nat → Pc} {t : Nat} {p : Pc} (h : f t = p) : f = pcSet f t p := by
  funext v
  unfold pcSet
  split
  · rename_i e; rw [e, h]
  · rfl

/-- What is missing in the counter (or too much in it) because the thread has not written it yet. -/
def owed : Pc → Int
  | .hugeLoad .. => -1
  | .hugeStore .. => -1
  | .cntLoad _ => 1
  | .cntStore .. => 1
  | _ => 0

/-- The value of the counter that a thread has read and not yet written. -/
def pending : Pc → Option Int
  | .hugeStore _ _ _ x _ => some x
  | .cntStore x _ => some x
  | _ => none

/-- What a step does to the counter; `d` and `d'` are the difference to the number of blocs. -/
def Counts (k k' : KS Light) (d d' : Int) (t : Nat) : Prop :=
  ((∀ x, pending (k.pc t) = some x → x = k.s.c.cnt) → d' = d + owed (k'.pc t) - owed (k.pc t)) ∧
    ∀ x, pending (k'.pc t) = some x → x = k'.s.c.cnt

theorem Counts.same {k k' : KS Light} {d : Int} {t : Nat} (h : owed (k'.pc t) = owed (k.pc t)) (h' : pending (k'.pc t) = none) :
    Counts k k' d d t := ⟨fun _ => by omega, fun x hx => by rw [h'] at hx; cases hx⟩

theorem goto_pc {k : KS Light} {t : Nat} {p : Pc} : (k.goto t p).pc t = p := if_pos rfl

theorem Counts.move {k k0 : KS Light} {d : Int} {t : Nat} {p p' : Pc} (hp : k.pc t = p) (h : owed p' = owed p)
    (h' : pending p' = none) : Counts k (k0.goto t p') d d t := .same (by rw [goto_pc, hp, h]) (by rw [goto_pc, h'])

theorem Counts.stay {k : KS Light} {k' : KS Light} {d : Int} {t : Nat} (hp : k.pc t = .idle) (hk : k'.pc = k.pc) : Counts k k' d d t :=
  .same (by rw [hk]) (by rw [hk, hp]; rfl)

theorem Counts.enter {k : KS Light} {d : Int} {t b n : Nat} {q : Cont} (h : owed (k.pc t) = 0) : Counts k (k.enter t b n q) d d t := by
  unfold KS.enter
  split
  · exact .same (by rw [goto_pc, h]; rfl) (by rw [goto_pc]; rfl)
  · exact .same (by rw [goto_pc, h]; rfl) (by rw [goto_pc]; rfl)

/-- What a step does: it keeps the invariant, or it is undefined since the kernel has no memory or since the realloc
factor is 0. -/
def Next (C : Config) (cl : Prop) (addr pb : Nat) (P : Res) (k : KS Light) (d : Int) (t : Nat) (r : Outcome (KS Light)) : Prop :=
  (r = .ub ∧ (¬ StepMem k t ∨ C.reallocFactor = 0)) ∨
  ∃ k' u' A' L' H' d', r = .ok k' ∧ KInv cl addr pb P k' u' A' L' H' d' ∧ Moves k k' t ∧ Counts k k' d d' t

section
variable {C : Config} {cl : Prop} {addr pb : Nat} {P : Res} {k : KS Light} {u : CS Light} {A : AHeap} {L : List (Nat × Nat)} {H : Own}
  {d : Int} {t : Nat}

theorem Next.of {r : Outcome (KS Light)} {k' : KS Light} {u' : CS Light} {A' : AHeap} {L' : List (Nat × Nat)} {H' : Own}
    {d' : Int} (e : r = .ok k') (I : KInv cl addr pb P k' u' A' L' H' d')
    (M : Moves k k' t) (hc : Counts k k' d d' t) : Next C cl addr pb P k d t r :=
  Or.inr ⟨k', u', A', L', H', d', e, I, M, hc⟩

theorem enter_moves {b n : Nat} {q : Cont} {p : Pc} (hp : k.pc t = p) (hh : holds p = false) (hlt : p = .idle ∨ 10 < left p) :
    Moves k (k.enter t b n q) t := by
  have key : ∀ p', holds p' = false → left p' ≤ 10 → Moves k (k.goto t p') t := by
    intro p' h1 h2
    refine ⟨p', rfl, Or.inl ⟨rfl, by rw [hp, h1, hh]⟩, ?_⟩
    rcases hlt with rfl | h
    · exact Or.inl hp
    · exact Or.inr (Or.inr (by rw [hp]; omega))
  unfold KS.enter
  split
  · exact key _ rfl (by simp [left])
  · exact key _ rfl (by simp [left])

/-- The state after a change of the lock word. -/
theorem KInv.lock (I : KInv cl addr pb P k u A L H d) (b : Bool) : (k.setLock b).s = adj b d u := by
  show ({ k.s with c := { k.s.c with lock := b } } : CS Light) = _
  rw [I.st]; rfl

/-- The state after a change of the counter. -/
theorem KInv.count (I : KInv cl addr pb P k u A L H d) (x : Int) : (k.setCnt x).s = adj k.s.c.lock (x - u.c.cnt) u := by
  show ({ k.s with c := { k.s.c with cnt := x } } : CS Light) = _
  rw [I.st]
  show ({ u with c := { u.c with lock := k.s.c.lock, cnt := x } } : CS Light) =
    { u with c := { u.c with lock := k.s.c.lock, cnt := u.c.cnt + (x - u.c.cnt) } }
  rw [show u.c.cnt + (x - u.c.cnt) = x by omega]

theorem KInv.diff (I : KInv cl addr pb P k u A L H d) : d = k.s.c.cnt - u.c.cnt := by
  have h : k.s.c.cnt = u.c.cnt + d := by rw [I.st]; rfl
  omega

/-- The difference between the counter and the number of blocs that the source handed out. -/
theorem KInv.diff' (I : KInv cl addr pb P k u A L H d) : d = k.s.c.cnt - k.s.w.src.counter := by
  have h1 := I.diff
  have h2 : (u.c.cnt : Int) = A.segs.length := I.inv.ch.cnt
  have h3 : k.s.w.src.counter = A.shape.length := by rw [I.mem, I.inv.lin.cnt, List.append_nil]
  have h4 : A.shape.length = A.segs.length := by unfold AHeap.shape; simp
  rw [h4] at h3
  omega

theorem KInv.found (I : KInv cl addr pb P k u A L H d) {l : Blk} (hl : l ∈ k.live) :
    k.live.find? (fun j => decide (j.ptr = l.ptr)) = some l := by
  have h := I.dist
  clear I
  generalize k.live = q at h hl
  induction q with
  | nil => cases hl
  | cons x q ih =>
    have ⟨h1, h2⟩ := List.pairwise_cons.1 h
    rcases List.mem_cons.1 hl with rfl | hq
    · rw [List.find?_cons_of_pos (by simp)]
    · rw [List.find?_cons_of_neg (by simpa using h1 l hq)]
      exact ih h2 hq

/-- A free begins. -/
theorem KInv.startFree (I : KInv cl addr pb P k u A L H d) (hp : k.pc t = .idle) {l : Blk} (hl : l ∈ k.live) :
    ∃ H', KInv cl addr pb P ((k.take l.ptr).goto t (.freeRead l.ptr none)) u A L H' d := by
  have h := I.pcs t
  rw [hp] at h
  exact I.took hl I.st rfl rfl rfl h.2 (fun c hb _ => ⟨⟨c, rfl, hb.ptr⟩, h.1⟩)

theorem KInv.live_nz (I : KInv cl addr pb P k u A L H d) {l : Blk} (hl : l ∈ k.live) : l.ptr ≠ 0 := by
  obtain ⟨c, h1, h2, _⟩ := I.live l hl
  have h3 := I.inv.ch.wf.uptr_ge c
  have h4 := h2.ptr
  omega

/-- A thread that is idle starts something. -/
theorem KInv.nextStart (I : KInv cl addr pb P k u A L H d) (hp : k.pc t = .idle) {a : Act} (hv : Valid k a)
    (hcl : cl → CleanAct a) :
    Next C cl addr pb P k d t (start k t a) := by
  have h := I.pcs t
  rw [hp] at h
  cases a with
  | alloc b n =>
    unfold start
    by_cases hn : n = 0
    · exact .of (if_pos hn) I (.begin hp (pcSet_self hp) rfl rfl) (.stay hp rfl)
    · exact .of (if_neg hn) (I.enter h.1 ⟨hv.1, hn, hv.2, hcl⟩ h.2) (enter_moves hp rfl (Or.inl rfl)) (.enter (by rw [hp]; rfl))
  | free p =>
    unfold start
    by_cases hz : p = 0
    · exact .of (if_pos hz) I (.begin hp (pcSet_self hp) rfl rfl) (.stay hp rfl)
    · rcases hv with hv | ⟨l, hl, rfl⟩
      · exact absurd hv hz
      · obtain ⟨H', I'⟩ := I.startFree hp hl
        exact .of (if_neg hz) I' (.begin hp rfl rfl rfl) (.move hp rfl rfl)
  | realloc b p n =>
    obtain ⟨v1, v2, v3⟩ := hv
    unfold start
    simp only
    by_cases hz : p = 0
    · rw [if_pos hz]
      by_cases hn : n = 0
      · exact .of (if_pos hn) I (.begin hp (pcSet_self hp) rfl rfl) (.stay hp rfl)
      · exact .of (if_neg hn) (I.enter h.1 ⟨v1, hn, v2, hcl⟩ h.2) (enter_moves hp rfl (Or.inl rfl)) (.enter (by rw [hp]; rfl))
    · rw [if_neg hz]
      rcases v3 with hv | ⟨l, hl, rfl, v3⟩
      · exact absurd hv hz
      · by_cases hn : n = 0
        · obtain ⟨H', I'⟩ := I.startFree hp hl
          exact .of (if_pos hn) I' (.begin hp rfl rfl rfl) (.move hp rfl rfl)
        · rw [if_neg hn, I.found hl]
          obtain ⟨H', I'⟩ := I.took (k' := (k.take l.ptr).goto t (.resize b n l)) (p := .resize b n l) (t := t) hl I.st rfl rfl rfl
            h.2 (fun c hb hh => ⟨h.1, ⟨v1, hn, v2, hcl⟩, c, rfl, hb, hh, v3.resolve_left hn⟩)
          exact .of rfl I' (.begin hp rfl rfl rfl) (.move hp rfl rfl)
  | write a v =>
    obtain ⟨l, hl, ha⟩ := hv
    obtain ⟨u', I'⟩ := I.write (v := v) hl ha
    exact .of rfl I' (.begin hp (pcSet_self hp) rfl rfl) (.stay hp rfl)

/-- The allocation under the lock. -/
theorem KInv.nextAlloc (I : KInv cl addr pb P k u A L H d) {b n : Nat} {q : Cont} (hp : k.pc t = .crit (.alloc b n q)) (a : Act) :
    Next C cl addr pb P k d t (step (lightSource C) C k t a) := by
  have h := I.pcs t
  rw [hp] at h
  obtain ⟨h1, hr, hs, hq⟩ := h
  obtain ⟨hz, hz2⟩ := reqSize_nz hr
  have key := locked_alloc (C := C) I.inv I.flags.1 hz hr.2.2.1.1 hs k.s.c.lock d
  unfold step
  rw [hp]
  simp only
  rw [withBound_eq hr]
  rcases key with ⟨⟨z, hz3, hR⟩, e⟩ | ⟨u', c, A', L', e, hst, R⟩
  · left
    rw [← I.st] at e
    rw [e]
    refine ⟨rfl, Or.inl ?_⟩
    unfold StepMem
    rw [hp]
    simp only
    rw [I.mem]
    exact hR.fresh hz3
  · rw [← I.st] at e
    rw [e, Outcome.ok_bind]
    refine .of rfl (I.upd (t := t) (p := .unlockA b n (c.addr + 15) q) (i := .new t) (o := some c) (d' := d) (Or.inl rfl)
      (R.step I.inv (fun _ => True)) (fun _ _ _ _ => trivial) ?_ rfl rfl (fun _ _ _ _ _ _ _ => rfl) rfl ?_ (fun _ => R.busy)
      (fun hc e he => ?_)) (.same hp rfl rfl rfl (by simp [left])) (.move hp rfl rfl)
    · rintro f hf
      injection hf with hf
      subst hf
      exact ⟨(R.used _).2 (Or.inr rfl), fun j _ hj => R.fresh (I.used _ _ hj)⟩
    · rw [H.set_eq, H.set_ne _ (fun h => by cases h)]
      have hf := R.fit
      have hu : c.uptr = c.addr + 16 := by unfold Ck.uptr Ck.off; rw [hst]
      refine ⟨⟨c, rfl, hst, rfl, by omega⟩, hr, hq.congr (fun f hf => ?_)⟩
      exact SStep.same (R.step I.inv (fun _ => True)) (I.used _ _ hf) trivial _
    · rcases (R.used e).1 he with h | rfl
      · exact Or.inr ⟨h, fun h' => by rw [h1] at h'; cases h'⟩
      · exact Or.inl ⟨rfl, R.noLeak (by rw [alignedSize_zero]; exact (hr.2.2.2 hc).cut hr.2.2.1)⟩

/-- A huge allocation gets its bloc. -/
theorem KInv.nextHuge (I : KInv cl addr pb P k u A L H d) {b n : Nat} {q : Cont} (hp : k.pc t = .hugeReq b n q) (a : Act) :
    Next C cl addr pb P k d t (step (lightSource C) C k t a) := by
  have h := I.pcs t
  rw [hp] at h
  obtain ⟨h1, hr, hs, hq⟩ := h
  obtain ⟨hz, hz2⟩ := reqSize_nz hr
  have hfit : reqSize b n + 64 ≤ blocSize (reqSize b n) := hr.2.2.1.fits.resolve_left (by omega)
  have key := huge_alloc (C := C) I.inv hz hr.2.2.1.1 hs hfit k.s.c.lock d
  unfold step
  rw [hp]
  simp only
  rw [withBound_eq hr]
  rcases key with ⟨⟨z, hz3, hR⟩, e⟩ | ⟨u', c, A', L', e, hst, R⟩
  · left
    rw [← I.st] at e
    rw [e]
    refine ⟨rfl, Or.inl ?_⟩
    unfold StepMem
    rw [hp]
    simp only
    rw [I.mem]
    exact hR.fresh hz3
  · rw [← I.st] at e
    rw [e, Outcome.ok_bind]
    simp only
    rw [if_neg (by omega)]
    refine .of rfl (I.upd (t := t) (p := .hugeLoad b n (c.addr + 15) q) (i := .new t) (o := some c) (d' := d - 1) (Or.inl rfl)
      (R.step I.inv (fun _ => True)) (fun _ _ _ _ => trivial) ?_ rfl rfl (fun _ _ _ _ _ _ _ => rfl) rfl ?_ (fun _ => R.busy)
      (fun hc e he => ?_)) (.same hp rfl rfl rfl (by simp [left]))
      ⟨fun _ => (by rw [goto_pc, hp]; show d - 1 = d + -1 - 0; omega), fun x hx => by rw [goto_pc] at hx; cases hx⟩
    · rintro f hf
      injection hf with hf
      subst hf
      exact ⟨(R.used _).2 (Or.inr rfl), fun j _ hj => R.fresh (I.used _ _ hj)⟩
    · rw [H.set_eq, H.set_ne _ (fun h => by cases h)]
      have hf := R.fit
      have hu : c.uptr = c.addr + 16 := by unfold Ck.uptr Ck.off; rw [hst]
      refine ⟨⟨c, rfl, hst, rfl, by omega⟩, hr, hq.congr (fun f hf => ?_)⟩
      exact SStep.same (R.step I.inv (fun _ => True)) (I.used _ _ hf) trivial _
    · rcases (R.used e).1 he with h | rfl
      · exact Or.inr ⟨h, fun h' => by rw [h1] at h'; cases h'⟩
      · exact Or.inl ⟨rfl, R.noLeak (by rw [alignedSize_zero]; exact (hr.2.2.2 hc).cut hr.2.2.1)⟩

/-- The padded header is written. -/
theorem KInv.nextPad (I : KInv cl addr pb P k u A L H d) {b n v : Nat} {q : Cont} (hp : k.pc t = .pad b n v q) (a : Act) :
    Next C cl addr pb P k d t (step (lightSource C) C k t a) := by
  have h := I.pcs t
  rw [hp] at h
  obtain ⟨⟨c, hc, hst, rfl, hsz⟩, hr, hq⟩ := h
  obtain ⟨m, e, A', he, R⟩ := pad_ok (n := n) I.inv (I.used _ _ hc) hst hr.1 hr.2.1 hsz k.s.c.lock d
  have hX : ∀ j f, j ≠ .new t → H j = some f → f ≠ c := by
    rintro j f hj hf rfl
    exact hj (I.inj _ _ _ hf hc)
  have hU : A'.Used e := (R.used e).2 (Or.inr rfl)
  rw [← I.st] at he
  unfold step
  rw [hp]
  simp only
  rw [he]
  simp only
  cases q with
  | ret =>
    unfold KS.allocated
    simp only
    rw [if_neg R.nz]
    have hb : BlkOK e ⟨e.uptr, n, b⟩ := ⟨rfl, R.fit, R.align, R.align16, R.noPad⟩
    have hd : ∀ x, (x < c.addr ∨ c.addr + c.size ≤ x) → (if e.uptr ≤ x ∧ x < e.uptr + n then
        (if x - e.uptr < 0 then k.data (e.uptr + (x - e.uptr)) else none) else k.data x) = k.data x := by
      intro x hx
      have h1 := R.fit
      have h3 := R.addr.1
      have h4 := R.addr.2
      have h5 := R.step.inv.ch.wf.uptr_ge e
      exact if_neg (by omega)
    have hh : ∀ x w, e.uptr ≤ x ∧ x < e.uptr + n → (if e.uptr ≤ x ∧ x < e.uptr + n then
        (if x - e.uptr < 0 then k.data (e.uptr + (x - e.uptr)) else none) else k.data x) = some w → m x = w := by
      intro x w hx hw
      rw [if_pos hx, if_neg (by omega)] at hw
      cases hw
    obtain ⟨H', I'⟩ := I.newBlock (k' := (({ k with s := adj k.s.c.lock d (u.setMem m) } : KS Light).inherit ⟨e.uptr, n, b⟩ ⟨e.uptr, 0, b⟩
      |>.give (some ⟨e.uptr, n, b⟩)).goto t .idle) hc R.addr.1 R.addr.2 R.step hX hU hb hq rfl rfl hd hh rfl
      (fun _ => R.busy) (fun f hf => ((R.used f).1 hf).symm)
    exact .of rfl I' (.same hp rfl rfl rfl (by simp [left])) (.move hp rfl rfl)
  | move l old =>
    unfold KS.allocated
    simp only
    rw [if_neg R.nz]
    refine .of rfl (I.upd (t := t) (p := .copy l old ⟨e.uptr, n, b⟩) (i := .new t) (o := some e) (d' := d) (Or.inl rfl)
      R.step hX ?_ rfl rfl (fun _ _ _ _ _ _ _ => rfl) rfl ?_ (fun _ => R.busy) (fun hcl f hf => ?_)) (.same hp rfl rfl rfl (by simp [left])) (.move hp rfl rfl)
    · intro f hf
      injection hf with hf
      subst hf
      refine ⟨hU, fun j hj hjf => ?_⟩
      have h1 := I.ptr_ne hjf hc hj
      have h2 := (I.inv.ch.wf.has_wf (I.used _ _ hc).1).ge
      have h3 := R.addr.1
      have h4 := R.addr.2
      omega
    · rw [H.set_eq, H.set_ne _ (fun h => by cases h)]
      refine ⟨⟨e, rfl, rfl, R.fit, R.align, R.align16, R.noPad⟩, hq.congr (fun f hf => ?_)⟩
      exact SStep.same R.step (I.used _ _ hf) (hX _ f (fun h => by cases h) hf) _
    · have hnl : ¬ Leak e := by
        have := ((I.clean hcl).2 c (I.used _ _ hc)).1
        unfold Leak at this ⊢
        rw [R.addr.2]; exact this
      rcases (R.used f).1 hf with ⟨h1, h2⟩ | rfl
      · exact Or.inr ⟨h1, fun h => h2 (by rw [hc] at h; exact (Option.some.inj h).symm)⟩
      · exact Or.inl ⟨rfl, hnl⟩

/-- The copy of a realloc. -/
theorem KInv.nextCopy (I : KInv cl addr pb P k u A L H d) {l e : Blk} {old : Nat} (hp : k.pc t = .copy l old e) (a : Act) :
    Next C cl addr pb P k d t (step (lightSource C) C k t a) := by
  have h := I.pcs t
  rw [hp] at h
  obtain ⟨⟨c, hc, hb⟩, f, hf, hbl, hh, rfl, hgrow⟩ := h
  have hW := I.inv.ch.wf
  have hdis := I.ptr_ne hc hf (fun h => by cases h)
  have b1 := hb.ptr
  have b2 := hb.fit
  have g1 := hbl.ptr
  have g2 := hbl.fit
  have hcu := hW.uptr_ge c
  have hfu := hW.uptr_ge f
  have hfg := (hW.has_wf (I.used _ _ hf).1).ge
  -- what is copied lies in the old chunk
  have hcp : (if f.size - 16 < e.len then f.size - 16 else e.len) ≤ e.len := by split <;> omega
  have hin : l.ptr + (if f.size - 16 < e.len then f.size - 16 else e.len) ≤ f.addr + f.size := by
    rcases hgrow with h | h
    · have hu : f.uptr = f.addr + 16 := by unfold Ck.uptr Ck.off; rw [hbl.noPad h]
      split <;> omega
    · split <;> omega
  have hall : ∀ i, i < e.len → i < l.len → i < (if f.size - 16 < e.len then f.size - 16 else e.len) := by
    intro i h1 h2
    split
    · omega
    · omega
  unfold step
  rw [hp]
  simp only
  generalize (if f.size - 16 < e.len then f.size - 16 else e.len) = z at hcp hin hall
  obtain ⟨m, hm, m1, m2⟩ := memCopy_ok (m := k.s.w.mem) (dst := e.ptr) (src := l.ptr) (n := z) (by omega)
  rw [hm, Outcome.ok_bind]
  have hmem : k.s.w.mem = u.w.mem := by rw [I.mem]
  rw [hmem] at m1 m2
  have S : SStep pb u A [] L P (fun j => j ≠ c) (u.setMem m) A L := I.inv.store (I.used _ _ hc) (fun x hx => m2 x (by omega))
  have hX : ∀ j g, j ≠ .new t → H j = some g → g ≠ c := by
    rintro j g hj hg rfl
    exact hj (I.inj _ _ _ hg hc)
  have hs : k.s.setMem m = adj k.s.c.lock d (u.setMem m) := by
    rw [← adj_setMem, ← I.st]
  have hh' : ∀ x w, e.ptr ≤ x ∧ x < e.ptr + e.len → (if e.ptr ≤ x ∧ x < e.ptr + e.len then
      (if x - e.ptr < l.len then k.data (l.ptr + (x - e.ptr)) else none) else k.data x) = some w → m x = w := by
    intro x w hx hw
    rw [if_pos hx] at hw
    by_cases hxl : x - e.ptr < l.len
    · rw [if_pos hxl] at hw
      have h1 := m1 (x - e.ptr) (hall _ (by omega) hxl)
      rw [show e.ptr + (x - e.ptr) = x by omega] at h1
      rw [h1]
      exact hh _ _ (by unfold Blk.Byte; omega) hw
    · rw [if_neg hxl] at hw; cases hw
  refine .of rfl (I.upd (t := t) (p := .freeRead l.ptr (some e)) (i := .new t) (o := some c) (d' := d) (Or.inl rfl)
    S hX ?_ hs rfl ?_ rfl ?_ (fun _ h => h) (fun hcl g hg => ?_)) (.same hp rfl rfl rfl (by simp [left])) (.move hp rfl rfl)
  · intro g hg
    injection hg with hg
    subst hg
    exact ⟨I.used _ _ hc, fun j hj hjg => hj (I.inj _ _ _ hjg hc)⟩
  · intro j g hj hg x h1 h2
    have h3 := I.ptr_ne hg hc hj
    have h4 := hW.uptr_ge g
    exact if_neg (by omega)
  · rw [H.set_eq, H.set_ne _ (fun h => by cases h)]
    exact ⟨⟨f, hf, g1⟩, c, rfl, hb, hh'⟩
  · by_cases hgc : g = c
    · subst hgc
      exact Or.inl ⟨rfl, ((I.clean hcl).2 g hg).1⟩
    · exact Or.inr ⟨hg, fun h => hgc (by rw [hc] at h; exact (Option.some.inj h).symm)⟩

/-- The reads of a free. -/
theorem KInv.nextRead (I : KInv cl addr pb P k u A L H d) {p : Nat} {r : Option Blk} (hp : k.pc t = .freeRead p r) (a : Act) :
    Next C cl addr pb P k d t (step (lightSource C) C k t a) := by
  have h := I.pcs t
  rw [hp] at h
  obtain ⟨⟨c, hc, rfl⟩, hr⟩ := h
  obtain ⟨g1, g2, g3⟩ := free_reads I.inv (I.used _ _ hc)
  unfold step
  rw [hp]
  simp only
  rw [I.mem, g1, Outcome.ok_bind, if_neg (by omega), if_neg (fun h => h g2), g3, I.huge, Outcome.pure_eq]
  by_cases hh : 1048576 < calcChunkSize c.size
  · rw [if_pos (by simpa using hh)]
    exact .of rfl (I.stay I.st rfl rfl rfl ⟨⟨c, hc, rfl, rfl, hh⟩, hr⟩) (.same hp rfl rfl rfl (by simp [left])) (.move hp rfl rfl)
  · rw [if_neg (by simpa using hh)]
    exact .of rfl (I.stay I.st rfl rfl rfl ⟨⟨c, hc, rfl, rfl, by omega⟩, hr⟩) (.same hp rfl rfl rfl (by simp [left])) (.move hp rfl rfl)

theorem _root_.MpcAlloc.SFree.minus {pb : Nat} {s s' : CS Light} {A A' : AHeap} {O L L' : List (Nat × Nat)} {P : Res} {c e : Ck}
    (R : SFree pb s A O L P c s' A' L') (h : ¬ Leak c) (he : A'.Used e) : A.Used e ∧ e ≠ c := by
  have hne : e ≠ c := by rintro rfl; exact R.gone h he
  exact ⟨(R.used e hne).1 he, hne⟩

/-- The free under the lock. -/
theorem KInv.nextFree (I : KInv cl addr pb P k u A L H d) {p v : Nat} {r : Option Blk} (hp : k.pc t = .crit (.free p v r)) (a : Act) :
    Next C cl addr pb P k d t (step (lightSource C) C k t a) := by
  have h := I.pcs t
  rw [hp] at h
  obtain ⟨⟨c, hc, rfl, rfl, hs⟩, hr⟩ := h
  obtain ⟨u', A', L', e, R⟩ := locked_free (C := C) I.inv I.flags.1 (I.used _ _ hc) hs k.s.c.lock d
  rw [← I.st] at e
  unfold step
  rw [hp]
  simp only
  rw [e, Outcome.ok_bind]
  exact .of rfl (I.freed (d' := d) (p := .unlockF r) hc (R.step I.inv) hr rfl rfl rfl rfl (fun _ _ h => ⟨rfl, h⟩)
    (fun _ => R.busy I.flags.2.1) (fun _ hnl e he => R.minus hnl he)) (.same hp rfl rfl rfl (by simp [left])) (.move hp rfl rfl)

theorem give_goto (k : KS Light) (r : Option Blk) : ((k.give r).goto t .idle).s = k.s ∧
    ((k.give r).goto t .idle).live = (k.give r).live ∧ ((k.give r).goto t .idle).data = k.data ∧
    ((k.give r).goto t .idle).pc = pcSet k.pc t .idle := by
  cases r <;> exact ⟨rfl, rfl, rfl, rfl⟩

/-- The free of a huge block. -/
theorem KInv.nextHugeFree (I : KInv cl addr pb P k u A L H d) {p v : Nat} {r : Option Blk} (hp : k.pc t = .hugeFree p v r) (a : Act) :
    Next C cl addr pb P k d t (step (lightSource C) C k t a) := by
  have h := I.pcs t
  rw [hp] at h
  obtain ⟨⟨c, hc, rfl, rfl, hs⟩, hr⟩ := h
  obtain ⟨g1, g2, g3⟩ := free_reads I.inv (I.used _ _ hc)
  unfold step
  rw [hp]
  simp only
  rw [I.mem, g3]
  by_cases hw : c.size % MB2 = MB2 - 48
  · obtain ⟨u', A', L', e, R⟩ := huge_free (C := C) I.inv (I.used _ _ hc) hs hw k.s.c.lock d
    rw [← I.st] at e
    rw [if_neg (fun h => h hw), e, Outcome.ok_bind]
    exact .of rfl (I.freed (d' := d + 1) (p := .cntLoad r) hc (R.step I.inv) hr rfl rfl rfl rfl (fun _ _ h => ⟨rfl, h⟩)
    (fun _ => R.busy I.flags.2.1) (fun _ hnl e he => R.minus hnl he)) (.same hp rfl rfl rfl (by simp [left]))
      ⟨fun _ => (by rw [goto_pc, hp]; show d + 1 = d + 1 - 0; omega), fun x hx => by rw [goto_pc] at hx; cases hx⟩
  · rw [if_pos hw]
    have hl : 1048560 < c.size := by
      have := (I.inv.ch.wf.has_range (I.used _ _ hc).1)
      by_contra h
      rw [calc_eq (by omega)] at hs
      omega
    have I1 := I.freed (k' := k.goto t (.unlockF r)) (d' := d) (p := .unlockF r) hc (SStep.refl I.inv _) hr I.st rfl rfl rfl
      (fun _ _ h => ⟨rfl, h⟩) (fun _ h => h) (fun _ hnl => absurd ⟨hl, hw⟩ hnl)
    obtain ⟨f1, f2, f3, f4⟩ := give_goto (t := t) k r
    obtain ⟨H', I'⟩ := I1.done (k' := (k.give r).goto t .idle) (t := t) (r := r) (pcSet_eq _ _ _) (by rw [f1]; exact I.st)
      (by rw [f2]; cases r <;> rfl) (by rw [f3]; rfl) (by rw [f4]; exact (pcSet_set _ _ _ _).symm)
    exact .of rfl I' (.same hp f4 (by rw [f1]) rfl (by simp [left])) (.move hp rfl rfl)

/-- The resize of a realloc. -/
theorem KInv.nextResize (I : KInv cl addr pb P k u A L H d) {b n : Nat} {l : Blk} (hp : k.pc t = .resize b n l) (a : Act) :
    Next C cl addr pb P k d t (step (lightSource C) C k t a) := by
  have h := I.pcs t
  rw [hp] at h
  obtain ⟨h1, hr, c, hc, hb, hh, hg⟩ := h
  have hW := I.inv.ch.wf
  obtain ⟨v, e1, e2, e3⟩ := getChunk_used hW I.inv.ch.mem (I.used _ _ hc)
  have hwf := hW.has_wf (I.used _ _ hc).1
  have hrange := hW.has_range (I.used _ _ hc).1
  have hge := hwf.ge
  rw [hb.ptr] at e1
  have e1 : getChunk u.w.mem l.ptr = .ok v := e1
  have e3 : getUnpaddedSize u.w.mem v = .ok c.size := e3
  unfold step
  rw [hp]
  simp only
  rw [I.mem, e1, Outcome.ok_bind, if_neg e2, e3, Outcome.ok_bind]
  rw [sub64_eq (by omega) (by omega)]
  by_cases hz : C.reallocFactor = 0 ∧ c.size - 16 ≥ n ∧ sub64 (c.size - 16) n ≤ C.reallocThreshold
  · rw [if_pos hz]
    exact Or.inl ⟨rfl, Or.inr hz.1⟩
  · rw [if_neg hz]
    by_cases hk : c.size - 16 ≥ n ∧ sub64 (c.size - 16) n ≤ C.reallocThreshold ∧
        sub64 (c.size - 16) n ≤ (c.size - 16) / C.reallocFactor
    · rw [if_pos hk, Outcome.pure_eq]
      have b1 := hb.ptr
      have b2 := hb.fit
      have hu := hW.uptr_ge c
      have I1 := I.shift (t := t) (p := .unlockF (some l)) h1 (by rw [hc]; exact ⟨rfl, c, rfl, hb, hh⟩)
      have hfit : l.ptr + n ≤ c.addr + c.size := by
        rcases hg with h | h
        · have : c.uptr = c.addr + 16 := by unfold Ck.uptr Ck.off; rw [hb.noPad h]
          omega
        · omega
      have hb' : BlkOK c ⟨l.ptr, n, l.bound⟩ := ⟨hb.ptr, hfit, hb.align, hb.align16, hb.noPad⟩
      have hd : ∀ x, (x < c.addr ∨ c.addr + c.size ≤ x) → (if l.ptr ≤ x ∧ x < l.ptr + n then
          (if x - l.ptr < l.len then k.data (l.ptr + (x - l.ptr)) else none) else k.data x) = k.data x :=
        fun x hx => if_neg (by omega)
      have hh' : ∀ x w, l.ptr ≤ x ∧ x < l.ptr + n → (if l.ptr ≤ x ∧ x < l.ptr + n then
          (if x - l.ptr < l.len then k.data (l.ptr + (x - l.ptr)) else none) else k.data x) = some w → u.w.mem x = w := by
        intro x w hx hw
        rw [if_pos hx] at hw
        by_cases hxl : x - l.ptr < l.len
        · rw [if_pos hxl, show l.ptr + (x - l.ptr) = x by omega] at hw
          exact hh x w (by unfold Blk.Byte; omega) hw
        · rw [if_neg hxl] at hw; cases hw
      obtain ⟨H', I'⟩ := I1.newBlock (t := t) (k' := ((k.inherit ⟨l.ptr, n, l.bound⟩ l).give (some ⟨l.ptr, n, l.bound⟩)).goto t .idle)
        (c := c) (e := c) (X := fun _ => True) (by rw [Own.move_to]; exact hc) rfl rfl (SStep.refl I.inv _) (fun _ _ _ _ => trivial)
        (I.used _ _ hc) hb' (Own.move_from H (fun h => by cases h)) I.st rfl hd hh' (pcSet_set _ _ _ _).symm
        (fun _ h => h) (fun f hf => by
          by_cases h : f = c
          · exact Or.inl h
          · exact Or.inr ⟨hf, h⟩)
      exact .of rfl I' (.same hp rfl rfl rfl (by simp [left])) (.move hp rfl rfl)
    · rw [if_neg hk, Outcome.pure_eq]
      exact .of rfl (I.enter h1 hr ⟨c, hc, hb, hh, rfl, hg⟩) (enter_moves hp rfl (Or.inr (by simp [left]))) (.enter (by rw [hp]; rfl))

/-- Every step keeps the invariant. -/
theorem KInv.next (I : KInv cl addr pb P k u A L H d) (a : Act) (hv : k.pc t = .idle → Valid k a)
    (hcl : k.pc t = .idle → cl → CleanAct a) :
    Next C cl addr pb P k d t (step (lightSource C) C k t a) := by
  have h := I.pcs t
  cases hp : k.pc t with
  | idle =>
    have : step (lightSource C) C k t a = start k t a := by unfold step; rw [hp]
    rw [this]
    exact I.nextStart hp (hv hp) (hcl hp)
  | swap j =>
    rw [hp] at h
    have : step (lightSource C) C k t a = .ok ((k.setLock true).goto t (if k.s.c.lock then .load j else .crit j)) := by
      unfold step; rw [hp]
    cases hl : k.s.c.lock with
    | true =>
      rw [hl] at this
      exact .of this (I.stay (I.lock true) rfl rfl rfl h) ⟨.load j, rfl, Or.inl ⟨hl.symm, by rw [hp]; rfl⟩,
        Or.inr (Or.inl ⟨hl, by rw [hp]; rfl⟩)⟩ (.move hp rfl rfl)
    | false =>
      rw [hl] at this
      exact .of this (I.stay (I.lock true) rfl rfl rfl h) ⟨.crit j, rfl, Or.inr (Or.inl ⟨hl, rfl, rfl⟩),
        Or.inr (Or.inr (by rw [hp]; cases j <;> simp [left]))⟩ (.move hp rfl rfl)
  | load j =>
    rw [hp] at h
    have : step (lightSource C) C k t a = .ok (k.goto t (if k.s.c.lock then .load j else .swap j)) := by
      unfold step; rw [hp]
    cases hl : k.s.c.lock with
    | true =>
      rw [hl] at this
      exact .of this (I.stay I.st rfl rfl rfl h) ⟨.load j, rfl, Or.inl ⟨rfl, by rw [hp]⟩,
        Or.inr (Or.inl ⟨hl, by rw [hp]; rfl⟩)⟩ (.move hp rfl rfl)
    | false =>
      rw [hl] at this
      exact .of this (I.stay I.st rfl rfl rfl h) (.same hp rfl rfl rfl (by cases j <;> simp [left])) (.move hp rfl rfl)
  | crit j =>
    cases j with
    | alloc b n q => exact I.nextAlloc hp a
    | free p v r => exact I.nextFree hp a
  | unlockA b n v q =>
    rw [hp] at h
    have hvz : v ≠ 0 := by obtain ⟨⟨c, _, _, rfl, _⟩, _⟩ := h; omega
    have : step (lightSource C) C k t a = .ok ((k.setLock false).goto t (.pad b n v q)) := by
      unfold step; rw [hp]; simp only; rw [if_neg hvz]
    exact .of this (I.stay (I.lock false) rfl rfl rfl h) ⟨_, rfl, Or.inr (Or.inr ⟨by rw [hp]; rfl, rfl, rfl⟩),
      Or.inr (Or.inr (by rw [hp]; simp [left]))⟩ (.move hp rfl rfl)
  | hugeReq b n q => exact I.nextHuge hp a
  | hugeLoad b n v q =>
    rw [hp] at h
    exact .of (by unfold step; rw [hp]) (I.stay (k' := k.goto t (.hugeStore b n v k.s.c.cnt q)) I.st rfl rfl rfl h)
      (.same hp rfl rfl rfl (by simp [left]))
      ⟨fun _ => (by rw [goto_pc, hp]; show d = d + -1 - -1; omega), fun x hx => by rw [goto_pc] at hx; exact (Option.some.inj hx).symm⟩
  | hugeStore b n v x q =>
    rw [hp] at h
    exact .of (by unfold step; rw [hp]) (I.stay (k' := (k.setCnt (x + 1)).goto t (.pad b n v q)) (I.count _) rfl rfl rfl h)
      (.same hp rfl rfl rfl (by simp [left]))
      ⟨fun hx => (by
        have h1 := hx x (by rw [hp]; rfl)
        have h2 := I.diff
        rw [goto_pc, hp]
        show x + 1 - u.c.cnt = d + 0 - -1
        omega), fun x hx => by rw [goto_pc] at hx; cases hx⟩
  | pad b n v q => exact I.nextPad hp a
  | copy l old e => exact I.nextCopy hp a
  | freeRead p r => exact I.nextRead hp a
  | unlockF r =>
    rw [hp] at h
    obtain ⟨f1, f2, f3, f4⟩ := give_goto (t := t) (k.setLock false) r
    obtain ⟨H', I'⟩ := I.ret (k' := ((k.setLock false).give r).goto t .idle) (t := t) h.1 h.2
      (by rw [f1]; exact I.lock false) (by rw [f2]; cases r <;> rfl) (by rw [f3]; rfl) (by rw [f4]; rfl)
    exact .of (by unfold step; rw [hp]) I' ⟨.idle, by rw [f4]; rfl, Or.inr (Or.inr ⟨by rw [hp]; rfl, by rw [f1]; rfl, rfl⟩),
      Or.inr (Or.inr (by rw [hp]; simp [left]))⟩ (.move hp rfl rfl)
  | hugeFree p v r => exact I.nextHugeFree hp a
  | cntLoad r =>
    rw [hp] at h
    exact .of (by unfold step; rw [hp]) (I.stay (k' := k.goto t (.cntStore k.s.c.cnt r)) I.st rfl rfl rfl h)
      (.same hp rfl rfl rfl (by simp [left]))
      ⟨fun _ => (by rw [goto_pc, hp]; show d = d + 1 - 1; omega), fun x hx => by rw [goto_pc] at hx; exact (Option.some.inj hx).symm⟩
  | cntStore x r =>
    rw [hp] at h
    obtain ⟨f1, f2, f3, f4⟩ := give_goto (t := t) (k.setCnt (x - 1)) r
    obtain ⟨H', I'⟩ := I.ret (k' := ((k.setCnt (x - 1)).give r).goto t .idle) (t := t) (d' := x - 1 - u.c.cnt) h.1 h.2
      (by rw [f1]; exact I.count _) (by rw [f2]; cases r <;> rfl) (by rw [f3]; rfl) (by rw [f4]; rfl)
    have hh := I.handler
    exact .of (by unfold step; rw [hp]; simp only; rw [if_neg (fun h => by rw [hh] at h; cases h.2.1)]) I'
      (.same (p' := .idle) hp (by rw [f4]; rfl) (by rw [f1]; rfl) rfl (by simp [left]))
      ⟨fun hx => (by
        have h1 := hx x (by rw [hp]; rfl)
        have h2 := I.diff
        rw [goto_pc, hp]
        show x - 1 - u.c.cnt = d + 0 - 1
        omega), fun x hx => by rw [goto_pc] at hx; cases hx⟩
  | resize b n l => exact I.nextResize hp a

end
end OnNode
end MpcAlloc
