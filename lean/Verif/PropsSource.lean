import Verif.LightSource

/-
Properties of the light memory source: C21, C22, C23, C41, C42.
-/

namespace MpcAlloc

/-! ## Specification -/

/-- Two blocs `(address, size)` share no byte. -/
def NoShare (d e : Nat × Nat) : Prop := ∀ x, ¬ ((d.1 ≤ x ∧ x < d.1 + d.2) ∧ (e.1 ≤ x ∧ x < e.1 + e.2))

/-- `Cached m s L`: `L` is the list of blocs that one meets by following the cache of the source, with the sizes
written in them. -/
def Cached (m : Mem) (s : Light) (L : List (Nat × Nat)) : Prop := CacheAt m s.cache L

/-- A history of a light memory source: memory and source reached, and the blocs `O` handed out and not given back,
with the size that was requested. `ins` tells whether segments may be inserted by hand.
* `request` : any positive number of whole pages;
* `free` : any bloc handed out;
* `insert` : any 2 MB multiple at a page boundary, in use by the caller, sharing no byte with the blocs of the source;
* `write` : the program may write everywhere but into the cached blocs and into the size field of the blocs it has;
* `map` : the program may map and unmap other memory. -/
inductive LHist (C : Config) (ins : Bool) : Mem → Light → List (Nat × Nat) → Prop
  | init (m o) : LHist C ins m (Light.init o) []
  | request {m s O size m' s' p} : LHist C ins m s O → 0 < size → size % 4096 = 0 →
      lightRequest C m s size = .ok (m', s', p) → LHist C ins m' s' ((p, size) :: O)
  | free {m s O b size m' s'} : LHist C ins m s O → (b, size) ∈ O → lightFree C m s b = .ok (m', s') →
      LHist C ins m' s' (O.erase (b, size))
  | insert {m s O L b size m' s'} : ins = true → LHist C ins m s O → Cached m s L → b ≠ 0 → b % 4096 = 0 → 0 < size →
      size % MB2 = 0 → b + size ≤ 140737488355328 → (∀ x, b ≤ x → x < b + size → s.os.used x = true) →
      (∀ d ∈ O ++ L, NoShare (b, size) d) → lightInsert m s b size = .ok (m', s') → LHist C ins m' s' O
  | write {m s O L m'} : LHist C ins m s O → Cached m s L → (∀ d ∈ L, ∀ x, d.1 ≤ x → x < d.1 + d.2 → m' x = m x) →
      (∀ d ∈ O, ∀ x, d.1 ≤ x → x < d.1 + 7 → m' x = m x) → LHist C ins m' s O
  | map {m s O L} (o' : Os) : LHist C ins m s O → Cached m s L →
      (∀ d ∈ O ++ L, ∀ x, d.1 ≤ x → x < d.1 + d.2 → o'.used x = s.os.used x) → LHist C ins m { s with os := o' } O

/-! ## Proofs -/

theorem Apart.noShare {d e : Nat × Nat} (h : Apart d e) : NoShare d e := by
  unfold Apart at h
  intro x hx
  omega

theorem NoShare.apart {d e : Nat × Nat} (h : NoShare d e) (hd : 0 < d.2) (he : 0 < e.2) : Apart d e := by
  have h1 := h (max d.1 e.1)
  unfold Apart
  omega

theorem sum_sublist {l l' : List Nat} (h : l.Sublist l') : l.sum ≤ l'.sum := by
  induction h with
  | slnil => exact Nat.le_refl _
  | cons a _ ih => simp only [List.sum_cons]; omega
  | cons_cons a _ ih => simp only [List.sum_cons]; omega

theorem ReqRel.p_ne_zero {m m' : Mem} {s s' : Light} {O L L' : List (Nat × Nat)} {size p : Nat}
    (r : ReqRel m s O L size p m' s' L') : p ≠ 0 := (r.inv.good (p, size) (by simp)).nz

theorem LHist.inv {C : Config} {ins : Bool} {m : Mem} {s : Light} {O : List (Nat × Nat)} (h : LHist C ins m s O) :
    ∃ L, LInv m s O L := by
  induction h with
  | init m o => exact ⟨[], Light.init_inv m o⟩
  | request _ hpos hmul e ih =>
    obtain ⟨L, I⟩ := ih
    rcases lightRequest_ok (C := C) I hpos hmul with ⟨_, _, h⟩ | ⟨m1, s1, p1, L', h, r⟩
    · rw [h] at e; cases e
    · rw [h] at e
      have e := Outcome.ok.inj e
      obtain ⟨e1, e2, e3⟩ : m1 = _ ∧ s1 = _ ∧ p1 = _ := ⟨(Prod.mk.inj e).1, (Prod.mk.inj (Prod.mk.inj e).2).1,
        (Prod.mk.inj (Prod.mk.inj e).2).2⟩
      rw [← e1, ← e2, ← e3]
      exact ⟨L', r.inv⟩
  | @free m s O b size m' s' _ hmem e ih =>
    obtain ⟨L, I⟩ := ih
    obtain ⟨O1, O2, hno, hO, her⟩ := List.exists_erase_eq hmem
    rw [hO] at I
    rw [her]
    obtain ⟨m1, s1, h, r, _⟩ := lightFree_ok (C := C) I
    rw [h] at e
    have e := Outcome.ok.inj e
    rw [← (Prod.mk.inj e).1, ← (Prod.mk.inj e).2]
    rcases r with ⟨_, _, r, _⟩ | ⟨_, r, _⟩
    · exact ⟨_, r⟩
    · exact ⟨_, r⟩
  | @insert m s O L b size m' s' _ _ hc h0 hpage hpos h2 hhigh hu hd e ih =>
    obtain ⟨L', I⟩ := ih
    have := CacheAt.unique hc I.cache
    subst this
    obtain ⟨m1, s1, h, I', _, _⟩ := lightInsert_ok (b := b) (size := size) I
      ⟨h0, hpage, hpos, by simp only; omega, hhigh, hu⟩
      (fun d hd' => (hd d hd').apart hpos (I.good d hd').pos) h2
    rw [h] at e
    have e := Outcome.ok.inj e
    rw [← (Prod.mk.inj e).1, ← (Prod.mk.inj e).2]
    exact ⟨_, I'⟩
  | write _ hc h1 h2 ih =>
    obtain ⟨L', I⟩ := ih
    have := CacheAt.unique hc I.cache
    subst this
    refine ⟨_, I.congr (fun d hd x hx1 hx2 => h1 d hd x hx1 ?_) (fun d hd => ?_)⟩
    · have g := I.good d (List.mem_append_right _ hd)
      have := g.pos
      have := g.mul
      omega
    · exact readLE_congr (fun x hx1 hx2 => h2 d hd x hx1 hx2)
  | map o' _ hc h1 ih =>
    obtain ⟨L', I⟩ := ih
    have := CacheAt.unique hc I.cache
    subst this
    refine ⟨_, I.cache, I.lock, I.cnt, I.size, fun d hd => ?_, I.apart, I.hdr⟩
    have g := I.good d hd
    exact ⟨g.nz, g.page, g.pos, g.mul, g.high, fun x hx1 hx2 => by
      rw [h1 d hd x hx1 hx2]; exact g.used x hx1 hx2⟩

/-- **C21.** Whatever the history, the blocs handed out and the blocs of the cache share no byte, and they are made of
mapped pages; a request never returns memory that the program has in use for something else. -/
theorem C21_no_double_hand_out {C : Config} {ins : Bool} {m : Mem} {s : Light} {O : List (Nat × Nat)}
    (h : LHist C ins m s O) :
    ∃ L, Cached m s L ∧ (O ++ L).Pairwise NoShare ∧
      (∀ d ∈ O ++ L, ∀ x, d.1 ≤ x → x < d.1 + d.2 → s.os.used x = true) ∧
      ∀ size m' s' p, 0 < size → size % 4096 = 0 → lightRequest C m s size = .ok (m', s', p) →
        p ≠ 0 ∧ p % 4096 = 0 ∧ (∀ d ∈ O, NoShare (p, size) d) ∧
        ((p, size) ∈ L ∨ ∀ x, p ≤ x → x < p + size → s.os.used x = false) := by
  obtain ⟨L, I⟩ := h.inv
  refine ⟨L, I.cache, I.apart.imp (fun h => h.noShare), fun d hd => (I.good d hd).used, ?_⟩
  intro size m' s' p hpos hmul e
  rcases lightRequest_ok (C := C) I hpos hmul with ⟨_, _, h⟩ | ⟨m1, s1, p1, L', h, r⟩
  · rw [h] at e; cases e
  · rw [h] at e
    have e := Outcome.ok.inj e
    have e3 : p1 = p := (Prod.mk.inj (Prod.mk.inj e).2).2
    subst e3
    refine ⟨r.p_ne_zero, (r.inv.good (p1, size) (by simp)).page, fun d hd => ?_, r.fresh⟩
    exact ((List.pairwise_cons.1 r.inv.apart).1 d (by simp [hd])).noShare

/-- **C22.** Whatever the history, each bloc handed out has the requested size in its header, the cached-size figure is
the sum of the sizes of the cached blocs, and the counter is the number of blocs handed out; a bloc given back is
accepted. -/
theorem C22_exact_accounting {C : Config} {ins : Bool} {m : Mem} {s : Light} {O : List (Nat × Nat)}
    (h : LHist C ins m s O) :
    (∀ d ∈ O, hSize m d.1 = d.2) ∧ s.counter = O.length ∧ s.lock = false ∧
      (∃ L, Cached m s L ∧ s.size = (L.map Prod.snd).sum) ∧
      ∀ b size, (b, size) ∈ O → ∃ m' s', lightFree C m s b = .ok (m', s') := by
  obtain ⟨L, I⟩ := h.inv
  refine ⟨I.hdr, I.cnt, I.lock, ⟨L, I.cache, I.size⟩, fun b size hmem => ?_⟩
  obtain ⟨O1, O2, rfl⟩ := List.append_of_mem hmem
  obtain ⟨m1, s1, h, _⟩ := lightFree_ok (C := C) I
  exact ⟨m1, s1, h⟩

/-- **C23.** When no segment is inserted by hand, the cache holds at most `keep_mem + keep_max` bytes, in blocs of at
most `keep_max` bytes. -/
theorem C23_cache_bounded {C : Config} {m : Mem} {s : Light} {O : List (Nat × Nat)} (h : LHist C false m s O) :
    ∃ L, Cached m s L ∧ (L.map Prod.snd).sum ≤ C.keepMem + C.keepMax ∧ ∀ d ∈ L, d.2 ≤ C.keepMax := by
  suffices key : ∃ L, LInv m s O L ∧ (L.map Prod.snd).sum ≤ C.keepMem + C.keepMax ∧ ∀ d ∈ L, d.2 ≤ C.keepMax by
    obtain ⟨L, I, h1, h2⟩ := key
    exact ⟨L, I.cache, h1, h2⟩
  induction h with
  | init m o => exact ⟨[], Light.init_inv m o, by simp, by simp⟩
  | @request m s O size m' s' p hh hpos hmul e ih =>
    obtain ⟨L, I, h1, h2⟩ := ih
    rcases lightRequest_ok (C := C) I hpos hmul with ⟨_, _, h⟩ | ⟨m1, s1, p1, L', h, r⟩
    · rw [h] at e; cases e
    · rw [h] at e
      have e := Outcome.ok.inj e
      obtain ⟨e1, e2, e3⟩ : m1 = _ ∧ s1 = _ ∧ p1 = _ := ⟨(Prod.mk.inj e).1, (Prod.mk.inj (Prod.mk.inj e).2).1,
        (Prod.mk.inj (Prod.mk.inj e).2).2⟩
      rw [← e1, ← e2, ← e3]
      refine ⟨L', r.inv, ?_, fun d hd => h2 d (r.sub d hd)⟩
      refine Nat.le_trans ?_ h1
      -- the blocs of the new cache are distinct blocs of the old one
      have hnd : L'.Nodup := by
        have hp := (List.pairwise_append.1 r.inv.apart).2.1
        have hg := fun d hd => (r.inv.good d (List.mem_append_right _ hd)).pos
        clear * - hp hg
        induction L' with
        | nil => exact List.nodup_nil
        | cons d l ih =>
          obtain ⟨p1, p2⟩ := List.pairwise_cons.1 hp
          refine List.nodup_cons.2 ⟨fun hm => ?_, ih p2 (fun d hd => hg d (List.mem_cons_of_mem _ hd))⟩
          have := p1 d hm
          have := hg d List.mem_cons_self
          unfold Apart at *
          omega
      have hsub := (List.subperm_of_subset hnd (fun d hd => r.sub d hd))
      obtain ⟨L2, hp, hs⟩ := hsub
      rw [← (hp.map Prod.snd).sum_eq]
      exact sum_sublist (hs.map Prod.snd)
  | @free m s O b size m' s' _ hmem e ih =>
    obtain ⟨L, I, h1, h2⟩ := ih
    obtain ⟨O1, O2, hno, hO, her⟩ := List.exists_erase_eq hmem
    rw [hO] at I
    rw [her]
    obtain ⟨m1, s1, h, r, _⟩ := lightFree_ok (C := C) I
    rw [h] at e
    have e := Outcome.ok.inj e
    rw [← (Prod.mk.inj e).1, ← (Prod.mk.inj e).2]
    rcases r with ⟨r1, r2, r, _⟩ | ⟨_, r, _⟩
    · refine ⟨_, r, ?_, ?_⟩
      · rw [I.size] at r2
        simp only [List.map_cons, List.sum_cons]
        omega
      · intro d hd
        rcases List.mem_cons.1 hd with rfl | hd
        · exact r1
        · exact h2 d hd
    · exact ⟨_, r, h1, h2⟩
  | insert hf => cases hf
  | write _ hc h1 h2 ih =>
    obtain ⟨L', I, k1, k2⟩ := ih
    have := CacheAt.unique hc I.cache
    subst this
    refine ⟨_, I.congr (fun d hd x hx1 hx2 => h1 d hd x hx1 ?_) (fun d hd => ?_), k1, k2⟩
    · have g := I.good d (List.mem_append_right _ hd)
      have := g.pos
      have := g.mul
      omega
    · exact readLE_congr (fun x hx1 hx2 => h2 d hd x hx1 hx2)
  | map o' _ hc h1 ih =>
    obtain ⟨L', I, k1, k2⟩ := ih
    have := CacheAt.unique hc I.cache
    subst this
    refine ⟨_, ⟨I.cache, I.lock, I.cnt, I.size, fun d hd => ?_, I.apart, I.hdr⟩, k1, k2⟩
    have g := I.good d hd
    exact ⟨g.nz, g.page, g.pos, g.mul, g.high, fun x hx1 hx2 => by
      rw [h1 d hd x hx1 hx2]; exact g.used x hx1 hx2⟩

/-- **C41.** Once all blocs are given back, the cleanup of the source ends, and afterwards the memory in use is exactly
the memory that was in use before, less the cached blocs. -/
theorem C41_cleanup {C : Config} {ins : Bool} {m : Mem} {s : Light} (h : LHist C ins m s []) :
    ∃ L s', Cached m s L ∧ lightCleanup m s = .ok s' ∧
      ∀ x, s'.os.used x = true ↔ s.os.used x = true ∧ ¬ ∃ d ∈ L, d.1 ≤ x ∧ x < d.1 + d.2 := by
  obtain ⟨L, I⟩ := h.inv
  obtain ⟨o', e, hu⟩ := lightCleanLoop_ok L s.os s.cache I.cache
    (fun d hd => ⟨(I.good d (by simp [hd])).pos, (I.good d (by simp [hd])).page, (I.good d (by simp [hd])).mul⟩)
  refine ⟨L, { s with lock := true, os := o' }, I.cache, ?_, fun x => ?_⟩
  · unfold lightCleanup
    rw [if_neg (by rw [I.lock]; simp), if_neg (by rw [I.cnt]; simp), e]
    rfl
  · simp only
    rw [hu x]
    constructor
    · rintro ⟨h1, h2⟩
      refine ⟨h1, ?_⟩
      rintro ⟨d, hd, h3, h4⟩
      have := h2 d hd
      omega
    · rintro ⟨h1, h2⟩
      refine ⟨h1, fun d hd => ?_⟩
      by_contra hc
      exact h2 ⟨d, hd, by omega, by omega⟩

/-- With blocs still in use by a chain, the cleanup aborts the program. -/
theorem C41_cleanup_aborts {C : Config} {ins : Bool} {m : Mem} {s : Light} {O : List (Nat × Nat)}
    (h : LHist C ins m s O) (hO : O ≠ []) : lightCleanup m s = .abort := by
  obtain ⟨L, I⟩ := h.inv
  unfold lightCleanup
  rw [if_neg (by rw [I.lock]; simp), if_pos]
  rw [I.cnt]
  cases O with
  | nil => exact absurd rfl hO
  | cons d l => simp only [List.length_cons]; omega

/-- The lock is still held after the cleanup: any later operation on the cache hangs. -/
theorem C41_lock_kept {m : Mem} {s s' : Light} (h : lightCleanup m s = .ok s') (b n : Nat) :
    lightFind m s' n = .diverge ∧ lightReg m s' b = .diverge ∧
      (b ≠ 0 → n ≠ 0 → b % 4096 = 0 → n % MB2 = 0 → lightInsert m s' b n = .diverge) := by
  have hl : s'.lock = true := by
    unfold lightCleanup at h
    split at h
    · cases h
    · split at h
      · cases h
      · obtain ⟨o, _, h⟩ := Outcome.bind_eq_ok h
        rw [← Outcome.ok.inj h]
  refine ⟨?_, ?_, fun h1 h2 h3 h4 => ?_⟩
  · unfold lightFind; rw [if_pos hl]
  · unfold lightReg; rw [if_pos hl]
  · unfold lightInsert lightReg
    rw [if_neg (by omega), if_neg (by omega), if_neg (by omega), if_pos hl]

/-- **C42**, what holds: a request is served whenever the kernel has the pages, or a bloc of the size is cached. -/
theorem C42_served_partial {C : Config} {ins : Bool} {m : Mem} {s : Light} {O : List (Nat × Nat)}
    (h : LHist C ins m s O) {size : Nat} (hpos : 0 < size) (hmul : size % 4096 = 0)
    (hos : s.os.Fresh (s.os.ans s.os.k) size ∨
      (size ≤ C.keepMax ∧ ∃ L, Cached m s L ∧ ∃ d ∈ L, d.2 = size)) :
    ∃ m' s' p, lightRequest C m s size = .ok (m', s', p) ∧ p ≠ 0 := by
  obtain ⟨L, I⟩ := h.inv
  rcases lightRequest_ok (C := C) I hpos hmul with ⟨h1, h2, _⟩ | ⟨m1, s1, p1, L', h, r⟩
  · exfalso
    rcases hos with h3 | ⟨h3, L', h4, d, hd, h5⟩
    · exact h1 h3
    · have := CacheAt.unique h4 I.cache
      subst this
      exact h2 h3 d hd h5
  · exact ⟨m1, s1, p1, h, r.p_ne_zero⟩

/-- **C42 is false of the code**: when the kernel refuses memory and no cached bloc fits, the request does not report
a failure; it writes a header at `MAP_FAILED`. -/
theorem C42_refuted {C : Config} {ins : Bool} {m : Mem} {s : Light} {O : List (Nat × Nat)}
    (h : LHist C ins m s O) {size : Nat} (hpos : 0 < size) (hmul : size % 4096 = 0)
    (hos : ¬ s.os.Fresh (s.os.ans s.os.k) size) (hc : ∀ L, Cached m s L → ∀ d ∈ L, d.2 ≠ size) :
    lightRequest C m s size = .ub := by
  obtain ⟨L, I⟩ := h.inv
  rcases lightRequest_ok (C := C) I hpos hmul with ⟨_, _, h⟩ | ⟨m1, s1, p1, L', h, r⟩
  · exact h
  · exfalso
    rcases r.fresh with h1 | h1
    · exact hc L I.cache _ h1 rfl
    · -- the bloc would come from the kernel
      rcases lightMmap_ok (size := size) I hmul with ⟨_, h2⟩ | ⟨h2, _⟩
      · have : lightRequest C m s size = lightMmap m s size := by
          unfold lightRequest
          rw [if_neg (by omega)]
          have hmiss : lightFind m s size = .ok (m, s, 0) := by
            rcases lightFindLoop_ok (size := size) L 0 s.cache I.cache with ⟨e, _⟩ | ⟨A, b, B, e1, _, _⟩
            · exact lightFind_miss I e
            · exact absurd rfl (hc L I.cache (b, size) (by rw [e1]; simp))
          rw [hmiss]
          cases lightKeep C s size false <;> rfl
        rw [this, h2] at h
        cases h
      · exact hos h2

/-! ## Concrete cases -/

/-- A kernel with nothing in use that proposes address 16 MB. -/
def osSample : Os := ⟨fun _ => 16777216, 0, fun _ => false⟩

theorem pageUp_MB2 : pageUp MB2 = MB2 := rfl

/-- One bloc of 2 MB is handed out, and the cache is empty. -/
theorem hist_one (m : Mem) (C : Config) :
    ∃ m' s' p, LHist C false m' s' [(p, MB2)] ∧ LInv m' s' [(p, MB2)] [] := by
  have H0 : LHist C false m (Light.init osSample) [] := .init m osSample
  have f0 : osSample.Fresh (osSample.ans 0) MB2 := by
    refine ⟨by decide, by decide, by decide, by rw [pageUp_MB2]; decide, fun _ _ => rfl⟩
  rcases lightRequest_ok (C := C) (Light.init_inv m osSample) (size := MB2) (by decide) (by decide) with
    ⟨h, _, _⟩ | ⟨m1, s1, p1, L', e, r⟩
  · exact absurd f0 h
  · refine ⟨m1, s1, p1, LHist.request H0 (by decide) (by decide) e, ?_⟩
    have hL : L' = [] := by
      cases L' with
      | nil => rfl
      | cons d l => exact absurd (r.sub d List.mem_cons_self) (by simp)
    exact hL ▸ r.inv

/-- Two blocs are handed out. -/
example (m : Mem) (C : Config) : ∃ m' s' p q, LHist C false m' s' [(q, MB2), (p, MB2)] := by
  obtain ⟨m1, s1, p, H1, I⟩ := hist_one m C
  have hh := (I.good (p, MB2) (by simp)).high
  have hMB : MB2 = 2097152 := rfl
  simp only [hMB] at hh
  obtain ⟨a, h1, h2, h3, h4⟩ : ∃ a, a ≠ 0 ∧ a % 4096 = 0 ∧ a + MB2 ≤ 140737488355328 ∧
      (a + MB2 ≤ p ∨ p + MB2 ≤ a) := by
    by_cases hp : p < 16777216
    · exact ⟨33554432, by decide, by decide, by decide, by rw [hMB]; omega⟩
    · exact ⟨4096, by decide, by decide, by decide, by rw [hMB]; omega⟩
  have H2 := LHist.map ⟨fun _ => a, 0, fun x => decide (p ≤ x ∧ x < p + MB2)⟩ H1 I.cache (fun d hd x hx1 hx2 => by
    have hd' : d = (p, MB2) := by simpa using hd
    subst hd'
    rw [(I.good _ hd).used x hx1 hx2]
    exact decide_eq_true ⟨hx1, hx2⟩)
  obtain ⟨m3, s3, p3, e3, _⟩ := C42_served_partial H2 (size := MB2) (by decide) (by decide)
    (Or.inl ⟨by decide, h1, h2, h3, fun i hi => by
      rw [pageUp_MB2] at hi
      simp only [decide_eq_false_iff_not]
      omega⟩)
  exact ⟨m3, s3, p, p3, LHist.request H2 (by decide) (by decide) e3⟩

/-- A bloc given back is cached, and handed out again although the kernel refuses memory. -/
example (m : Mem) (C : Config) (hk : MB2 ≤ C.keepMax) :
    ∃ m' s' L, LHist C false m' s' [] ∧ Cached m' s' L ∧ L.length = 1 ∧ (∀ n, ¬ s'.os.Fresh (s'.os.ans s'.os.k) n) ∧
      ∃ m'' s'' p, lightRequest C m' s' MB2 = .ok (m'', s'', p) := by
  obtain ⟨m1, s1, p, H1, I⟩ := hist_one m C
  obtain ⟨m2, s2, e2, r, _⟩ := lightFree_ok (C := C) (O1 := []) (O2 := []) I
  have hs : s1.size ≤ C.keepMem := by rw [I.size]; simp
  rcases r with ⟨_, _, r, _⟩ | ⟨h, _⟩
  · have H2 := LHist.free H1 (b := p) (size := MB2) (by simp) e2
    have her : [(p, MB2)].erase (p, MB2) = [] := by simp
    rw [her] at H2
    have H3 := LHist.map ⟨fun _ => 0, 0, s2.os.used⟩ H2 r.cache (fun _ _ _ _ _ => rfl)
    refine ⟨m2, _, [(p, MB2)], H3, r.cache, rfl, fun n h => h.2.1 rfl, ?_⟩
    obtain ⟨m4, s4, p4, e4, _⟩ := C42_served_partial H3 (size := MB2) (by decide) (by decide)
      (Or.inr ⟨hk, _, r.cache, (p, MB2), by simp, rfl⟩)
    exact ⟨m4, s4, p4, e4⟩
  · exact absurd ⟨hk, hs⟩ h

/-- A refusal by the kernel, in the initial state. -/
example (m : Mem) (C : Config) : lightRequest C m (Light.init ⟨fun _ => 0, 0, fun _ => false⟩) MB2 = .ub :=
  C42_refuted (ins := false) (LHist.init m _) (by decide) (by decide) (fun h => h.2.1 rfl)
    (fun L hL d hd => by
      rw [CacheAt.unique hL (show CacheAt m 0 [] from rfl)] at hd
      cases hd)

end MpcAlloc
