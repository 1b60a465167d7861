import Verif.NumaSource

/-
C59: a strict memory source binds the memory that it hands out and keeps to its node.
-/

namespace MpcAlloc
namespace NumaSource

open NumaStat (pagesOf)
open NumaMigrate (Binding setArea lightMigrate)

/-! ## Specification -/

/-- The node of the byte at `x` (-1: the default policy). -/
def nodeAt (s : NSrc) (x : Nat) : Int := s.bind (x / 4096)

/-- All bytes of the bloc are bound to the node. -/
def On (s : NSrc) (k : Int) (d : Nat × Nat) : Prop := ∀ x, d.1 ≤ x → x < d.1 + d.2 → nodeAt s x = k

/-- A history of a memory source that was set up for `node`, strict or not. As `LHist`, and `all` tells whether hwloc and the
kernel have done all the bindings that were asked for. The rest of the program may change the binding of its other
memory. -/
inductive NHist (C : Config) (ins all : Bool) (node : Int) (strict : Bool) : Mem → NSrc → List (Nat × Nat) → Prop
  | init (m o b) : NHist C ins all node strict m (nInit o b node strict) []
  | request {m s O size m' s' p} (ans : Bool) : NHist C ins all node strict m s O → (all = true → ans = true) → 0 < size →
      size % 4096 = 0 → nRequest C ans m s size = .ok (m', s', p) → NHist C ins all node strict m' s' ((p, size) :: O)
  | free {m s O b size m' s'} : NHist C ins all node strict m s O → (b, size) ∈ O → nFree C m s b = .ok (m', s') →
      NHist C ins all node strict m' s' (O.erase (b, size))
  | insert {m s O L b size m' s'} (ans : Bool) : ins = true → NHist C ins all node strict m s O → (all = true → ans = true) →
      Cached m s.l L → b ≠ 0 → b % 4096 = 0 → 0 < size → size % MB2 = 0 → b + size ≤ 140737488355328 →
      (∀ x, b ≤ x → x < b + size → s.l.os.used x = true) → (∀ d ∈ O ++ L, NoShare (b, size) d) →
      nInsert ans m s b size = .ok (m', s') → NHist C ins all node strict m' s' O
  | write {m s O L m'} : NHist C ins all node strict m s O → Cached m s.l L →
      (∀ d ∈ L, ∀ x, d.1 ≤ x → x < d.1 + d.2 → m' x = m x) →
      (∀ d ∈ O, ∀ x, d.1 ≤ x → x < d.1 + 7 → m' x = m x) → NHist C ins all node strict m' s O
  | map {m s O L} (o' : Os) (b' : Binding) : NHist C ins all node strict m s O → Cached m s.l L →
      (∀ d ∈ O ++ L, ∀ x, d.1 ≤ x → x < d.1 + d.2 → o'.used x = s.l.os.used x ∧ b' (x / 4096) = s.bind (x / 4096)) →
      NHist C ins all node strict m { s with l := { s.l with os := o' }, bind := b' } O

/-! ## Proofs -/

section
variable {C : Config} {ins all : Bool} {node : Int} {strict : Bool} {m : Mem} {s : NSrc} {O : List (Nat × Nat)}

/-- Without its NUMA part the source has the history of a light source; node, mode and node set are those of the start. -/
theorem NHist.erase (h : NHist C ins all node strict m s O) : LHist C ins m s.l O ∧ s.node = node ∧ s.strict = strict ∧
    s.set = if strict = true ∧ node ≠ -1 then .node node else .null := by
  induction h with
  | init m o b => exact ⟨.init m o, rfl, rfl, rfl⟩
  | request ans _ _ hpos hmul e ih =>
    obtain ⟨i1, i2, i3, i4⟩ := ih
    obtain ⟨g, r⟩ := nRequest_ok (by omega) e
    refine ⟨.request i1 hpos hmul g, ?_⟩
    rcases r with ⟨_, r1, r2, r3, _⟩ | ⟨_, r⟩
    · rw [r1, r2, r3]; exact ⟨i2, i3, i4⟩
    · rw [r.node, r.strict, r.set]; exact ⟨i2, i3, i4⟩
  | free _ hmem e ih =>
    obtain ⟨i1, i2, i3, i4⟩ := ih
    obtain ⟨g, r1, r2, r3, _⟩ := nFree_ok e
    rw [r1, r2, r3]
    exact ⟨.free i1 hmem g, i2, i3, i4⟩
  | insert ans hi _ _ hc h0 hp hpos h2 hh hu hd e ih =>
    obtain ⟨i1, i2, i3, i4⟩ := ih
    obtain ⟨g, r⟩ := nInsert_ok h0 (by omega) e
    rw [r.node, r.strict, r.set]
    exact ⟨.insert hi i1 hc h0 hp hpos h2 hh hu hd g, i2, i3, i4⟩
  | write _ hc h1 h2 ih => exact ⟨.write ih.1 hc h1 h2, ih.2⟩
  | map o' b' _ hc h1 ih =>
    exact ⟨.map o' ih.1 hc (fun d hd x hx1 hx2 => (h1 d hd x hx1 hx2).1), ih.2⟩

/-- The binding of the new bloc after a request that was served by the kernel, of a page of a bloc in use. -/
theorem request_binding {ans : Bool} {size p : Nat} {s' : NSrc} (hmul : size % 4096 = 0) (f : s.l.os.Fresh p size)
    (r : Bound s s' (setArea s.bind p (pageUp size) (-1)) ans p size) :
    (∀ x, s.l.os.used x = true → nodeAt s' x = nodeAt s x) ∧
      ((On s' (-1) (p, size) ∧ ((s.strict = false ∨ s.node = -1 ∨ s.set = .null) ∨ ans = false)) ∨
       ∃ k, s.set = .node k ∧ s.strict = true ∧ s.node ≠ -1 ∧ ans = true ∧ On s' k (p, size)) := by
  obtain ⟨_, _, hp, _, hu⟩ := f
  rw [pageUp_mul hmul] at hu
  have hout : ∀ x, s.l.os.used x = true → x < p ∨ p + size ≤ x := by
    intro x hx
    by_contra hc
    have := hu (x - p) (by omega)
    rw [show p + (x - p) = x by omega, hx] at this
    cases this
  have rb := r.bind
  rw [pageUp_mul hmul] at rb
  rcases rb with ⟨e, h⟩ | ⟨k, h1, h2, h3, h4, e⟩
  · refine ⟨fun x hx => ?_, .inl ⟨fun x hx1 hx2 => ?_, h⟩⟩
    · unfold nodeAt
      rw [e, setArea_out hp hmul (hout x hx)]
    · unfold nodeAt
      rw [e, setArea_in hp hmul hx1 hx2]
  · refine ⟨fun x hx => ?_, .inr ⟨k, h1, h2, h3, h4, fun x hx1 hx2 => ?_⟩⟩
    · unfold nodeAt
      rw [e, setArea_out hp hmul (hout x hx), setArea_out hp hmul (hout x hx)]
    · unfold nodeAt
      rw [e, setArea_in hp hmul hx1 hx2]

/-- The invariant: all blocs are bound to `k`. -/
theorem NHist.on {k : Int} (h : NHist C ins all node strict m s O)
    (hk : (strict = true ∧ node ≠ -1 ∧ all = true ∧ k = node) ∨ ((strict = false ∨ node = -1) ∧ ins = false ∧ k = -1)) :
    ∃ L, LInv m s.l O L ∧ ∀ d ∈ O ++ L, On s k d := by
  induction h with
  | init m o b => exact ⟨[], Light.init_inv m o, by simp⟩
  | @request m s O size m' s' p ans hh ha hpos hmul e ih =>
    obtain ⟨L, I, H⟩ := ih
    obtain ⟨_, i2, i3, i4⟩ := hh.erase
    obtain ⟨g, r⟩ := nRequest_ok (by omega) e
    rcases lightRequest_ok (C := C) I hpos hmul with ⟨_, _, h⟩ | ⟨m1, s1, p1, L', h, q⟩
    · rw [h] at g; cases g
    · rw [h] at g
      have g := Outcome.ok.inj g
      obtain ⟨g1, g2⟩ := Prod.mk.inj g
      obtain ⟨g4, g3⟩ := Prod.mk.inj g2
      subst g1; subst g3
      rw [g4] at q
      refine ⟨L', q.inv, ?_⟩
      rcases r with ⟨r0, _, _, _, r1⟩ | ⟨f, r⟩
      · have hp : (p1, size) ∈ L := by
          rcases q.fresh with h | h
          · exact h
          · have g1 := (q.inv.good (p1, size) (by simp))
            have g2 := g1.used p1 (Nat.le_refl _) (by have := g1.pos; simp only at *; omega)
            rw [r0, h p1 (Nat.le_refl _) (by omega)] at g2
            cases g2
        have hall : ∀ d ∈ (p1, size) :: O ++ L', d ∈ O ++ L := by
          intro d hd
          rcases List.mem_append.1 hd with hd | hd
          · rcases List.mem_cons.1 hd with rfl | hd
            · exact List.mem_append_right _ hp
            · exact List.mem_append_left _ hd
          · exact List.mem_append_right _ (q.sub d hd)
        intro d hd x hx1 hx2
        unfold nodeAt
        rw [r1]
        exact H d (hall d hd) x hx1 hx2
      · obtain ⟨b1, b2⟩ := request_binding hmul f r
        have hold : ∀ d ∈ O ++ L, On s' k d := by
          intro d hd x hx1 hx2
          rw [b1 x ((I.good d hd).used x hx1 hx2)]
          exact H d hd x hx1 hx2
        have hnew : On s' k (p1, size) := by
          rcases hk with ⟨k1, k2, k3, k4⟩ | ⟨k1, k2, k3⟩
          · rw [if_pos ⟨k1, k2⟩] at i4
            rcases b2 with ⟨_, (b2 | b2 | b2) | b2⟩ | ⟨k', b2, _, _, _, b3⟩
            · rw [i3, k1] at b2; cases b2
            · rw [i2] at b2; exact absurd b2 k2
            · rw [i4] at b2; cases b2
            · rw [ha k3] at b2; cases b2
            · rw [i4] at b2
              cases b2
              rw [k4]; exact b3
          · rcases b2 with ⟨b2, _⟩ | ⟨k', _, b3, b4, _⟩
            · rw [k3]; exact b2
            · rw [i3] at b3
              rw [i2] at b4
              rcases k1 with k1 | k1
              · rw [k1] at b3; cases b3
              · exact absurd k1 b4
        intro d hd
        rcases List.mem_append.1 hd with hd | hd
        · rcases List.mem_cons.1 hd with rfl | hd
          · exact hnew
          · exact hold d (List.mem_append_left _ hd)
        · exact hold d (List.mem_append_right _ (q.sub d hd))
  | @free m s O b size m' s' hh hmem e ih =>
    obtain ⟨L, I, H⟩ := ih
    obtain ⟨O1, O2, hno, hO, her⟩ := List.exists_erase_eq hmem
    rw [hO] at I H
    rw [her]
    obtain ⟨g, r1, r2, r3, r4⟩ := nFree_ok e
    obtain ⟨m1, s1, h, r, _⟩ := lightFree_ok (C := C) I
    rw [h] at g
    have g := Outcome.ok.inj g
    obtain ⟨g1, g2⟩ := Prod.mk.inj g
    subst g1
    rw [g2] at r
    have hb := I.good (b, size) (by simp)
    have hap : ∀ d ∈ (O1 ++ O2) ++ L, Apart (b, size) d := by
      have : ((b, size) :: ((O1 ++ O2) ++ L)).Pairwise Apart := by
        have hp : ((O1 ++ (b, size) :: O2) ++ L).Perm ((b, size) :: ((O1 ++ O2) ++ L)) :=
          List.Perm.append_right _ List.perm_middle
        exact (hp.pairwise_iff (fun h => Apart.symm h)).1 I.apart
      exact (List.pairwise_cons.1 this).1
    have hsz : hSize m b = size := I.hdr (b, size) (by simp)
    have hsz' : hSize m b % W64 = size := by
      have := hb.high
      simp only at this
      omega
    rw [hsz'] at r4
    have hpage : b % 4096 = 0 := hb.page
    have hmul : size % 4096 = 0 := hb.mul
    have hold : ∀ d ∈ (O1 ++ O2) ++ L, On s' k d := by
      intro d hd x hx1 hx2
      have h0 : nodeAt s x = k := by
        refine H d ?_ x hx1 hx2
        rcases List.mem_append.1 hd with hd | hd
        · rcases List.mem_append.1 hd with hd | hd
          · exact List.mem_append_left _ (List.mem_append_left _ hd)
          · exact List.mem_append_left _ (List.mem_append_right _ (List.mem_cons_of_mem _ hd))
        · exact List.mem_append_right _ hd
      have a : b + size ≤ d.1 ∨ d.1 + d.2 ≤ b := hap d hd
      rcases r4 with ⟨_, r4⟩ | ⟨_, r4⟩
      · unfold nodeAt; rw [r4]; exact h0
      · have h1 := setArea_out (b := s.bind) (k := -1) (x := x) hpage hmul (by omega)
        unfold nodeAt
        rw [r4, h1]
        exact h0
    rcases r with ⟨r5, r6, r, ro⟩ | ⟨_, r, _⟩
    · refine ⟨_, r, fun d hd => ?_⟩
      rcases List.mem_append.1 hd with hd | hd
      · exact hold d (List.mem_append_left _ hd)
      · rcases List.mem_cons.1 hd with rfl | hd
        · -- kept in the cache: its binding is not changed
          intro x hx1 hx2
          have h0 : nodeAt s x = k := H (b, size) (by simp) x hx1 hx2
          rcases r4 with ⟨_, r4⟩ | ⟨r4, _⟩
          · unfold nodeAt; rw [r4]; exact h0
          · unfold lightKeep at r4
            simp [r5, r6] at r4
        · exact hold d (List.mem_append_right _ hd)
    · exact ⟨_, r, hold⟩
  | @insert m s O L b size m' s' ans hi hh ha hc h0 hpage hpos h2 hhigh hu hd e ih =>
    obtain ⟨L', I, H⟩ := ih
    have := CacheAt.unique hc I.cache
    subst this
    obtain ⟨_, i2, i3, i4⟩ := hh.erase
    obtain ⟨g, r⟩ := nInsert_ok h0 (by omega) e
    have hap : ∀ d ∈ O ++ L, Apart (b, size) d := fun d hd' => (hd d hd').apart hpos (I.good d hd').pos
    have hmul : size % 4096 = 0 := by omega
    obtain ⟨m1, s1, h, I', _, _⟩ := lightInsert_ok (b := b) (size := size) I
      ⟨h0, hpage, hpos, hmul, hhigh, hu⟩ hap h2
    rw [h] at g
    have g := Outcome.ok.inj g
    obtain ⟨g1, g2⟩ := Prod.mk.inj g
    subst g1
    rw [g2] at I'
    refine ⟨_, I', ?_⟩
    rcases hk with ⟨k1, k2, k3, k4⟩ | ⟨_, k2, _⟩
    · rw [if_pos ⟨k1, k2⟩] at i4
      have rb : s'.bind = setArea s.bind b size node := by
        rcases r.bind with ⟨_, (b2 | b2 | b2) | b2⟩ | ⟨k', b2, _, _, _, b3⟩
        · rw [i3, k1] at b2; cases b2
        · rw [i2] at b2; exact absurd b2 k2
        · rw [i4] at b2; cases b2
        · rw [ha k3] at b2; cases b2
        · rw [i4] at b2
          cases b2
          exact b3
      have hold : ∀ d ∈ O ++ L, On s' k d := by
        intro d hd x hx1 hx2
        have a := hap d hd
        have := H d hd x hx1 hx2
        unfold nodeAt at *
        rw [rb, setArea_out hpage hmul (by unfold Apart at a; simp only at a; omega)]
        exact this
      have hnew : On s' k (b, size) := by
        intro x hx1 hx2
        unfold nodeAt
        rw [rb, setArea_in hpage hmul hx1 hx2, k4]
      intro d hd
      rcases List.mem_append.1 hd with hd | hd
      · exact hold d (List.mem_append_left _ hd)
      · rcases List.mem_cons.1 hd with rfl | hd
        · exact hnew
        · exact hold d (List.mem_append_right _ hd)
    · rw [hi] at k2; cases k2
  | write hh hc h1 h2 ih =>
    obtain ⟨L', I, H⟩ := ih
    have := CacheAt.unique hc I.cache
    subst this
    obtain ⟨L2, I2⟩ := (NHist.write hh hc h1 h2).erase.1.inv
    have hl := CacheAt.unique I2.cache (I.cache.congr (fun d hd x hx1 hx2 => h1 d hd x hx1 (by
      have g := I.good d (List.mem_append_right _ hd)
      have := g.pos
      have := g.mul
      omega)))
    rw [hl] at I2
    exact ⟨_, I2, H⟩
  | @map m s O L o' b' hh hc h1 ih =>
    obtain ⟨L', I, H⟩ := ih
    have := CacheAt.unique hc I.cache
    subst this
    obtain ⟨L2, I2⟩ := (NHist.map o' b' hh hc h1).erase.1.inv
    have hl := CacheAt.unique I2.cache I.cache
    rw [hl] at I2
    refine ⟨_, I2, fun d hd x hx1 hx2 => ?_⟩
    have := H d hd x hx1 hx2
    unfold nodeAt at *
    simp only
    rw [(h1 d hd x hx1 hx2).2]
    exact this

end

/-- The binding call is made as long as the node set was not freed. -/
theorem nBind_total (ans : Bool) (s : NSrc) (b n : Nat) (h : s.set ≠ .freed) : ∃ s', nBind ans s b n = .ok s' := by
  unfold nBind nForce
  split
  · split
    · exact ⟨_, rfl⟩
    · rename_i h'; exact absurd h' h
    · exact ⟨_, rfl⟩
  · exact ⟨_, rfl⟩

/-- A request served by the cache, whatever the kernel would answer. -/
theorem nRequest_cached {C : Config} {m : Mem} {s : NSrc} {O L : List (Nat × Nat)} {size b : Nat} (ans : Bool)
    (I : LInv m s.l O L) (h : (b, size) ∈ L) (hk : size ≤ C.keepMax) :
    ∃ m' l' p, nRequest C ans m s size = .ok (m', { s with l := l' }, p) ∧ (p, size) ∈ L := by
  have hpos := (I.good _ (List.mem_append_right _ h)).pos
  simp only at hpos
  rcases lightFindLoop_ok (size := size) L 0 s.l.cache I.cache with ⟨_, h'⟩ | ⟨A, b', B, rfl, e, _⟩
  · exact absurd rfl (h' _ h)
  · obtain ⟨m', l', e', r⟩ := lightFind_hit I e
    refine ⟨m', l', b', ?_, by simp⟩
    unfold nRequest
    rw [if_neg (by omega), if_pos (by unfold lightKeep; simp [hk]), e', Outcome.ok_bind]
    simp only
    rw [if_neg r.p_ne_zero]
    rfl

/-! ## Properties -/

/-- **C59** (partial: hwloc and the kernel do what is asked for, and the source is not migrated). Whatever the history of a
strict source, every byte of the blocs that it has handed out and of those in its cache is bound to its node: the memory
it maps, the segments inserted by hand, and what is handed out again from the cache. -/
theorem C59_bound_partial {C : Config} {ins : Bool} {node : Int} {m : Mem} {s : NSrc} {O : List (Nat × Nat)}
    (h : NHist C ins true node true m s O) (hn : node ≠ -1) :
    ∃ L, Cached m s.l L ∧ ∀ d ∈ O ++ L, ∀ x, d.1 ≤ x → x < d.1 + d.2 → nodeAt s x = node := by
  obtain ⟨L, I, H⟩ := h.on (.inl ⟨rfl, hn, rfl, rfl⟩)
  exact ⟨L, I.cache, H⟩

/-- **C59** (the rest of the program). A request changes the binding of no memory in use before; the insertion of a segment
and the return of a bloc change the binding of no byte outside of it. -/
theorem C59_others {C : Config} {ins all : Bool} {node : Int} {strict : Bool} {m : Mem} {s : NSrc} {O : List (Nat × Nat)}
    (h : NHist C ins all node strict m s O) :
    (∀ ans size m' s' p, 0 < size → size % 4096 = 0 → nRequest C ans m s size = .ok (m', s', p) →
      ∀ x, s.l.os.used x = true → nodeAt s' x = nodeAt s x) ∧
    (∀ ans b size m' s', b ≠ 0 → 0 < size → nInsert ans m s b size = .ok (m', s') →
      ∀ x, (x < b ∨ b + size ≤ x) → nodeAt s' x = nodeAt s x) ∧
    (∀ b size m' s', (b, size) ∈ O → nFree C m s b = .ok (m', s') →
      ∀ x, (x < b ∨ b + size ≤ x) → nodeAt s' x = nodeAt s x) := by
  refine ⟨?_, ?_, ?_⟩
  · intro ans size m' s' p hpos hmul e x hx
    rcases (nRequest_ok (by omega) e).2 with ⟨_, _, _, _, r⟩ | ⟨f, r⟩
    · unfold nodeAt; rw [r]
    · exact (request_binding hmul f r).1 x hx
  · intro ans b size m' s' hb hpos e x hx
    have hp : b % 4096 = 0 ∧ size % MB2 = 0 := by
      unfold nInsert at e
      rw [if_neg (by omega)] at e
      split at e
      · cases e
      · split at e
        · cases e
        · omega
    unfold nodeAt
    rcases (nInsert_ok hb (by omega) e).2.bind with ⟨r, _⟩ | ⟨k, _, _, _, _, r⟩
    · rw [r]
    · have := setArea_out (b := s.bind) (k := k) (x := x) hp.1 (n := size) (by omega) hx
      rw [r, this]
  · intro b size m' s' hmem e x hx
    obtain ⟨L, I⟩ := h.erase.1.inv
    have hb := I.good (b, size) (List.mem_append_left _ hmem)
    have hsz : hSize m b = size := I.hdr (b, size) hmem
    have hsz' : hSize m b % W64 = size := by
      have := hb.high
      simp only at this
      omega
    obtain ⟨_, _, _, _, r⟩ := nFree_ok e
    rw [hsz'] at r
    unfold nodeAt
    rcases r with ⟨_, r⟩ | ⟨_, r⟩
    · rw [r]
    · have := setArea_out (b := s.bind) (k := -1) (x := x) (a := b) (n := size) hb.page hb.mul hx
      rw [r, this]

/-- **C59** (apart from the binding). Until the cleanup, the source of a build with hwloc does what the source of a build
without hwloc does, for all requests, returns and insertions, in failures too. -/
theorem C59_same {C : Config} {ins all : Bool} {node : Int} {strict : Bool} {m : Mem} {s : NSrc} {O : List (Nat × Nat)}
    (h : NHist C ins all node strict m s O) :
    (∀ ans size, (nRequest C ans m s size >>= fun r => .ok (r.1, r.2.1.l, r.2.2)) = lightRequest C m s.l size) ∧
    (∀ ans b size, (nInsert ans m s b size >>= fun r => .ok (r.1, r.2.l)) = lightInsert m s.l b size) ∧
    (∀ b, (nFree C m s b >>= fun r => .ok (r.1, r.2.l)) = lightFree C m s.l b) := by
  have hs : s.set ≠ .freed := by
    rw [h.erase.2.2.2]
    split <;> (intro h; cases h)
  clear h
  refine ⟨?_, ?_, ?_⟩
  · intro ans size
    unfold nRequest lightRequest
    split
    · rfl
    · cases hf : (if lightKeep C s.l size false = true then lightFind m s.l size else pure (m, s.l, 0)) with
      | abort => rfl
      | ub => rfl
      | diverge => rfl
      | ok r =>
        obtain ⟨m1, l1, b⟩ := r
        rw [Outcome.ok_bind, Outcome.ok_bind]
        simp only
        split
        · unfold nMmap lightMmap
          simp only
          obtain ⟨⟨m2, o2, b2⟩, hm⟩ : ∃ r, r = mmap m1 l1.os size := ⟨_, rfl⟩
          rw [← hm]
          simp only
          split
          · rfl
          · split
            · rfl
            · obtain ⟨s1, e1⟩ := nBind_total ans { s with l := l1, bind := setArea s.bind b2 (pageUp size) (-1) } b2 size hs
              obtain ⟨g1, _⟩ := nBind_ok e1
              simp only at g1
              rw [e1, Outcome.ok_bind, Outcome.pure_eq, Outcome.ok_bind]
              simp only [g1]
        · rfl
  · intro ans b size
    unfold nInsert lightInsert
    split
    · rfl
    · split
      · rfl
      · split
        · rfl
        · obtain ⟨s1, e1⟩ := nBind_total ans s b size hs
          obtain ⟨g1, _⟩ := nBind_ok e1
          rw [e1, Outcome.ok_bind, g1]
          cases lightReg (lightSetupFree m b size) s.l b <;> rfl
  · intro b
    unfold nFree lightFree
    simp only
    split
    · cases lightReg (lightSetupFree m b (hSize m b)) s.l b <;> rfl
    · rfl

/-- **C59** is false of the code for the sources of the nodes used by malloc (sctk_alloc_posix.c 222-230, which are set up
for their node but not strict), and for strict sources without a node: nothing that they hand out or keep is ever bound,
whatever the history. -/
theorem C59_refuted_default {C : Config} {all : Bool} {node : Int} {strict : Bool} {m : Mem} {s : NSrc}
    {O : List (Nat × Nat)} (h : NHist C false all node strict m s O) (hs : strict = false ∨ node = -1) :
    ∃ L, Cached m s.l L ∧ ∀ d ∈ O ++ L, ∀ x, d.1 ≤ x → x < d.1 + d.2 → nodeAt s x = -1 := by
  obtain ⟨L, I, H⟩ := h.on (.inr ⟨hs, rfl, rfl⟩)
  exact ⟨L, I.cache, H⟩

/-- **C59** is false of the code when hwloc or the kernel refuses: the request succeeds all the same, and hands out new
memory with the default policy (bytes not in use before). -/
theorem C59_refuted_refusal {C : Config} {ins all : Bool} {node : Int} {strict : Bool} {m : Mem} {s : NSrc}
    {O : List (Nat × Nat)} (h : NHist C ins all node strict m s O) {size : Nat} (hpos : 0 < size) (hmul : size % 4096 = 0)
    (hos : s.l.os.Fresh (s.l.os.ans s.l.os.k) size) (hc : ∀ L, Cached m s.l L → ∀ d ∈ L, d.2 ≠ size) :
    ∃ m' s' p, nRequest C false m s size = .ok (m', s', p) ∧ ∀ x, p ≤ x → x < p + size → nodeAt s' x = -1 := by
  obtain ⟨L, I⟩ := h.erase.1.inv
  obtain ⟨m', l', p, e, _⟩ := C42_served_partial h.erase.1 (C := C) hpos hmul (.inl hos)
  rw [← (C59_same h).1 false size] at e
  obtain ⟨⟨m1, s1, p1⟩, e1, e⟩ := Outcome.bind_eq_ok e
  refine ⟨m1, s1, p1, e1, ?_⟩
  obtain ⟨g, r⟩ := nRequest_ok (by omega) e1
  rcases lightRequest_ok (C := C) I hpos hmul with ⟨_, _, h'⟩ | ⟨m2, s2, p2, L', h', q⟩
  · rw [h'] at g; cases g
  · rw [h'] at g
    have g := Outcome.ok.inj g
    obtain ⟨g1, g2⟩ := Prod.mk.inj g
    obtain ⟨g4, g3⟩ := Prod.mk.inj g2
    subst g1; subst g3
    rw [g4] at q
    have hfr : ∀ x, p2 ≤ x → x < p2 + size → s.l.os.used x = false := by
      rcases q.fresh with hq | hq
      · exact absurd rfl (hc L I.cache _ hq)
      · exact hq
    rcases r with ⟨r, _⟩ | ⟨f, r⟩
    · have g1 := q.inv.good (p2, size) (by simp)
      have g2 := g1.used p2 (Nat.le_refl _) (by simp only; omega)
      rw [r, hfr p2 (Nat.le_refl _) (by omega)] at g2
      cases g2
    · rcases (request_binding hmul f r).2 with ⟨r, _⟩ | ⟨_, _, _, _, r, _⟩
      · exact r
      · cases r

/-- **C59** is false of the code after the cleanup of a strict source: a request that is too large for the cache uses the node
set that was freed. -/
theorem C59_refuted_cleanup {C : Config} {ins all : Bool} {node : Int} {m : Mem} {s s' : NSrc} {O : List (Nat × Nat)}
    (h : NHist C ins all node true m s O) (hn : node ≠ -1) (e : nCleanup m s = .ok s') (ans : Bool) {size : Nat}
    (hsz : C.keepMax < size) (hos : s'.l.os.Fresh (s'.l.os.ans s'.l.os.k) size) (m' : Mem) :
    nRequest C ans m' s' size = .ub := by
  obtain ⟨_, i2, i3, i4⟩ := h.erase
  rw [if_pos ⟨rfl, hn⟩] at i4
  unfold nCleanup at e
  obtain ⟨l, _, e⟩ := Outcome.bind_eq_ok e
  rw [i4] at e
  have e := Outcome.ok.inj e
  rw [← e] at hos ⊢
  simp only at hos ⊢
  unfold nRequest
  rw [if_neg (by omega), if_neg (by unfold lightKeep; simp; omega), Outcome.pure_eq, Outcome.ok_bind]
  simp only
  rw [if_pos trivial]
  have h1 : l.os.ans l.os.k ≠ 0 := hos.2.1
  have h2 : l.os.ans l.os.k ≠ W64 - 1 := by have := hos.2.2.2.1; omega
  unfold nMmap mmap
  simp only
  rw [if_pos hos]
  simp only
  rw [if_neg h1, if_neg h2]
  unfold nBind
  simp only
  rw [if_pos ⟨i3, by rw [i2]; exact hn⟩]
  rfl

/-- **C59** is false of the code after a migration of a strict source: the blocs of its cache move to the target, node and
node set of the source stay as they were, and a request hands out a bloc that is on the target. -/
theorem C59_refuted_migrate {C : Config} {ins all : Bool} {node : Int} {strict : Bool} {m : Mem} {s : NSrc}
    {O L : List (Nat × Nat)} (h : NHist C ins all node strict m s O) (hc : Cached m s.l L) {b size nodes : Nat}
    {target : Int} (hb : (b, size) ∈ L) (hk : size ≤ C.keepMax) (h0 : 0 ≤ target) (h1 : target < nodes)
    (ht : target ≠ node) (ans : Bool) :
    ∃ bind', lightMigrate true nodes s.node L target s.bind = .ok (node, bind') ∧
      ∃ m' s' p, nRequest C ans m { s with bind := bind' } size = .ok (m', s', p) ∧ s'.node = node ∧ s'.set = s.set ∧
        ∀ x, p ≤ x → x < p + size → nodeAt s' x = target := by
  obtain ⟨L', I⟩ := h.erase.1.inv
  have := CacheAt.unique hc I.cache
  subst this
  have hnode := h.erase.2.1
  obtain ⟨n, b', e, M⟩ := NumaMigrate.C55_source_partial (nodes := nodes) (node := s.node) (l := L) s.bind h0 h1
    (by rw [hnode]; exact ht) (fun d hd => by
      have g := I.good d (List.mem_append_right _ hd)
      have := g.pos
      exact ⟨g.nz, by omega⟩)
  have hn : n = node := by rw [NumaMigrate.C55_refuted_source e (by omega), hnode]
  subst hn
  obtain ⟨m', l', p, e', hp⟩ := nRequest_cached (C := C) (s := { s with bind := b' }) ans I hb hk
  refine ⟨b', e, m', _, p, e', hnode, rfl, fun x hx1 hx2 => ?_⟩
  have g := I.good _ (List.mem_append_right _ hp)
  have hmem : x / 4096 ∈ pagesOf p size := (mem_pagesOf g.page g.mul).2 ⟨hx1, hx2⟩
  have hmem' : ∀ (l : List (Nat × Nat)), (p, size) ∈ l → x / 4096 ∈ l.foldr (fun x P => pagesOf x.1 x.2 ∪ P) ∅ := by
    intro l
    induction l with
    | nil => intro h; cases h
    | cons a l ih =>
      intro h
      rw [List.foldr_cons]
      rcases List.mem_cons.1 h with h | h
      · exact Finset.mem_union_left _ (by rw [← h]; exact hmem)
      · exact Finset.mem_union_right _ (ih h)
  unfold nodeAt
  simp only
  rw [M (x / 4096), if_pos (hmem' L hp)]

/-! ## Concrete cases -/

/-- A strict source of node 1 that has handed out one bloc of 2 MB. -/
theorem nhist_one (C : Config) (ins : Bool) (strict : Bool) (m : Mem) :
    ∃ m' s' p, NHist C ins true 1 strict m' s' [(p, MB2)] ∧ LInv m' s'.l [(p, MB2)] [] := by
  have H0 : NHist C ins true 1 strict m (nInit osSample (fun _ => 0) 1 strict) [] := .init m osSample _
  have f0 : osSample.Fresh (osSample.ans 0) MB2 := by
    refine ⟨by decide, by decide, by decide, by rw [pageUp_MB2]; decide, fun _ _ => rfl⟩
  rcases lightRequest_ok (C := C) (Light.init_inv m osSample) (size := MB2) (by decide) (by decide) with
    ⟨h, _, _⟩ | ⟨m1, s1, p1, L', e, r⟩
  · exact absurd f0 h
  · have hs := (C59_same H0).1 true MB2
    rw [show (nInit osSample (fun _ => 0) 1 strict).l = Light.init osSample from rfl, e] at hs
    obtain ⟨⟨m2, s2, p2⟩, e1, e2⟩ := Outcome.bind_eq_ok hs
    have e2 := Outcome.ok.inj e2
    obtain ⟨g1, g2⟩ := Prod.mk.inj e2
    obtain ⟨g3, g4⟩ := Prod.mk.inj g2
    simp only at g1 g3 g4
    refine ⟨m2, s2, p2, .request true H0 (fun _ => rfl) (by decide) (by decide) e1, ?_⟩
    have hL : L' = [] := by
      cases L' with
      | nil => rfl
      | cons d l => exact absurd (r.sub d List.mem_cons_self) (by simp)
    rw [g1, g3, g4]
    exact hL ▸ r.inv

/-- It is bound to node 1; with a source that is not strict it is not bound. -/
example (C : Config) (m : Mem) : ∃ m' s' p, NHist C true true 1 true m' s' [(p, MB2)] ∧ nodeAt s' p = 1 := by
  obtain ⟨m', s', p, H, _⟩ := nhist_one C true true m
  obtain ⟨L, _, h⟩ := C59_bound_partial H (by decide)
  exact ⟨m', s', p, H, h (p, MB2) (by simp) p (Nat.le_refl _) (by simp only; omega)⟩

example (C : Config) (m : Mem) : ∃ m' s' p, NHist C false true 1 false m' s' [(p, MB2)] ∧ nodeAt s' p = -1 := by
  obtain ⟨m', s', p, H, _⟩ := nhist_one C false false m
  obtain ⟨L, _, h⟩ := C59_refuted_default H (.inl rfl)
  exact ⟨m', s', p, H, h (p, MB2) (by simp) p (Nat.le_refl _) (by simp only; omega)⟩

/-- The bloc is given back and kept in the cache. -/
theorem nhist_cached (C : Config) (strict : Bool) (m : Mem) (hk : MB2 ≤ C.keepMax) :
    ∃ m' s' p, NHist C false true 1 strict m' s' [] ∧ LInv m' s'.l [] [(p, MB2)] := by
  obtain ⟨m1, s1, p, H1, I⟩ := nhist_one C false strict m
  obtain ⟨m2, s2, e2, r, _⟩ := lightFree_ok (C := C) (O1 := []) (O2 := []) I
  have hs : s1.l.size ≤ C.keepMem := by rw [I.size]; simp
  rcases r with ⟨_, _, r, _⟩ | ⟨h, _⟩
  · have hq := (C59_same H1).2.2 p
    rw [e2] at hq
    obtain ⟨⟨m3, s3⟩, e1, e3⟩ := Outcome.bind_eq_ok hq
    have e3 := Outcome.ok.inj e3
    obtain ⟨g1, g2⟩ := Prod.mk.inj e3
    simp only at g1 g2
    have H2 := NHist.free H1 (b := p) (size := MB2) (by simp) e1
    rw [show [(p, MB2)].erase (p, MB2) = [] by simp] at H2
    rw [← g1, ← g2] at r
    exact ⟨m3, s3, p, H2, r⟩
  · exact absurd ⟨hk, hs⟩ h

/-- Refusal at the first request. -/
example (C : Config) (m : Mem) : ∃ m' s' p, nRequest C false m (nInit osSample (fun _ => 0) 1 true) MB2 = .ok (m', s', p) ∧
    ∀ x, p ≤ x → x < p + MB2 → nodeAt s' x = -1 :=
  C59_refuted_refusal (C := C) (ins := false) (all := false) (.init m osSample _) (by decide) (by decide)
    (by
      have f0 : osSample.Fresh (osSample.ans 0) MB2 := by
        refine ⟨by decide, by decide, by decide, by rw [pageUp_MB2]; decide, fun _ _ => rfl⟩
      exact f0)
    (fun L hL d hd => by
      rw [CacheAt.unique hL (show CacheAt m 0 [] from rfl)] at hd
      cases hd)

/-- Cleanup of a new source of node 1, then a request of 10 MB. -/
example (m : Mem) : ∃ s', nCleanup m (nInit osSample (fun _ => 0) 1 true) = .ok s' ∧
    nRequest Config.default true m s' (5 * MB2) = .ub := by
  have e : nCleanup m (nInit osSample (fun _ => 0) 1 true) = .ok
      { nInit osSample (fun _ => 0) 1 true with l := { Light.init osSample with lock := true }, set := .freed } := by
    unfold nCleanup lightCleanup
    rw [if_neg (by decide), if_neg (by decide)]
    rw [show lightCleanLoop m (nInit osSample (fun _ => 0) 1 true).l.os (nInit osSample (fun _ => 0) 1 true).l.cache =
      .ok osSample by rw [lightCleanLoop]; rfl]
    rfl
  refine ⟨_, e, C59_refuted_cleanup (C := Config.default) (ins := false) (all := true) (.init m osSample _) (by decide) e
    true (by decide) ?_ m⟩
  exact ⟨by decide, by decide, by decide, by decide, fun _ _ => rfl⟩

/-- A source of node 1 with a cached bloc is migrated to node 0. -/
example (m : Mem) : ∃ m1 s p bind', NHist Config.default false true 1 true m1 s [] ∧
    lightMigrate true 2 s.node [(p, MB2)] 0 s.bind = .ok (1, bind') ∧
    ∃ m' s' q, nRequest Config.default true m1 { s with bind := bind' } MB2 = .ok (m', s', q) ∧ s'.node = 1 ∧
      nodeAt s' q = 0 := by
  obtain ⟨m1, s, p, H, I⟩ := nhist_cached Config.default true m (by decide)
  obtain ⟨b', e, m', s', q, e', hn, _, hq⟩ := C59_refuted_migrate H I.cache (nodes := 2) (target := 0) (b := p) (size := MB2)
    (by simp) (by decide) (by decide) (by decide) (by decide) true
  exact ⟨m1, s, p, b', H, e, m', s', q, e', hn, hq q (Nat.le_refl _) (by omega)⟩

end NumaSource
end MpcAlloc
