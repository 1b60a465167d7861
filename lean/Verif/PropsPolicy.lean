import Verif.PoolRange
import Verif.PropsChain

/-!
C75: which free chunk an allocation takes, and in which order the free lists keep the chunks.
-/

namespace MpcAlloc

variable {σ : Type}

/-! ### Specification -/

/-- Size of a class: multiples of 32 up to 1 KB, then powers of two up to 2 MB. -/
def clsSize (k : Nat) : Nat := if k < 32 then 32 * (k + 1) else 2 ^ (k - 21)

/-- The class where the search for `z` bytes starts: the smallest one whose chunks are all large enough. -/
def StartClass (z k : Nat) : Prop := k ≤ 42 ∧ z ≤ clsSize k ∧ ∀ i, i < k → clsSize i < z

/-- The list in which a free chunk of `z` bytes is kept: the last class that is not above its size, or the list 44
beyond 2 MB. -/
def HomeClass (z j : Nat) : Prop :=
  (z ≤ 2097152 ∧ j ≤ 42 ∧ clsSize j ≤ z ∧ ∀ i, i ≤ 42 → clsSize i ≤ z → i ≤ j) ∨ (2097152 < z ∧ j = 44)

/-- The free lists in memory, list `i` with the chunks `fl i` (address and size) in the order of the list. -/
def Lists (m : Mem) (pb : Nat) (fl : Nat → List (Nat × Nat)) : Prop :=
  ∀ i, i < 48 → FreeList m (pb + 32 * i) ((fl i).map Prod.fst) ∧ ∀ c ∈ fl i, c.2 = readLE m c.1 7

/-- The chunk to take for `z` bytes, `k` being the class where the search starts: the head of the first list from `k`
that is not empty; if they are all empty, the first chunk of the list below that is large enough. -/
def Choice (fl : Nat → List (Nat × Nat)) (k z : Nat) (c : Nat × Nat) : Prop :=
  (∃ j, k ≤ j ∧ j < 44 ∧ (∀ i, k ≤ i → i < j → fl i = []) ∧ (fl j).head? = some c) ∨
  ((∀ i, k ≤ i → i < 44 → fl i = []) ∧ 0 < k ∧ ∃ l1 l2, fl (k - 1) = l1 ++ c :: l2 ∧ z ≤ c.2 ∧ ∀ d ∈ l1, d.2 < z)

/-- There is no chunk to take. -/
def NoChoice (fl : Nat → List (Nat × Nat)) (k z : Nat) : Prop :=
  (∀ i, k ≤ i → i < 44 → fl i = []) ∧ (0 < k → ∀ c ∈ fl (k - 1), c.2 < z)

/-- A size rounded up to a multiple of 16. -/
def round16 (z : Nat) : Nat := (z + 15) / 16 * 16

/-! ### Lemmas -/

theorem clsSize_mono {i j : Nat} (h : i ≤ j) : clsSize i ≤ clsSize j := by
  rcases Nat.eq_or_lt_of_le h with rfl | h
  · exact Nat.le_refl _
  · exact Nat.le_of_lt (ftbl_lt h)

theorem StartClass.unique {z k k' : Nat} (h : StartClass z k) (h' : StartClass z k') : k = k' := IsClass.unique h h'

theorem homeClass_of {z j : Nat} (h : IsStoreClass z j) : HomeClass z j := by
  rcases h with ⟨h1, h2, h3, h4⟩ | h
  · refine Or.inl ⟨h1, h2, h3, fun i hi hz => ?_⟩
    by_contra hc
    have h5 := h4 (by omega)
    have h6 : clsSize (j + 1) ≤ clsSize i := clsSize_mono (by omega)
    have h7 : clsSize (j + 1) = ftbl (j + 1) := rfl
    omega
  · exact Or.inr h

theorem HomeClass.unique {z j j' : Nat} (h : HomeClass z j) (h' : HomeClass z j') : j = j' := by
  rcases h with ⟨h1, h2, h3, h4⟩ | ⟨h1, h2⟩ <;> rcases h' with ⟨h5, h6, h7, h8⟩ | ⟨h5, h6⟩
  · have := h4 j' h6 h7
    have := h8 j h2 h3
    omega
  · omega
  · omega
  · omega

/-- Address and size of a chunk. -/
def Ck.pair (c : Ck) : Nat × Nat := (c.addr, c.size)

/-- Lists of the abstract heap. -/
def AHeap.pairs (A : AHeap) : Nat → List (Nat × Nat) := fun i => (A.fl i).map Ck.pair

theorem Lists.unique {m : Mem} {pb : Nat} {fl fl' : Nat → List (Nat × Nat)} (h : Lists m pb fl) (h' : Lists m pb fl')
    {i : Nat} (hi : i < 48) : fl i = fl' i := by
  obtain ⟨a1, a2⟩ := h i hi
  obtain ⟨b1, b2⟩ := h' i hi
  have e := a1.unique b1
  generalize fl i = x at *
  generalize fl' i = y at *
  clear a1 b1
  induction x generalizing y with
  | nil => cases y with
    | nil => rfl
    | cons b y => simp at e
  | cons a x ih =>
    cases y with
    | nil => simp at e
    | cons b y =>
      simp only [List.map_cons, List.cons.injEq] at e
      have h1 := a2 a (by simp)
      have h2 := b2 b (by simp)
      have : a = b := Prod.ext e.1 (by rw [h1, h2, e.1])
      rw [this, ih (fun c hc => a2 c (by simp [hc])) y (fun c hc => b2 c (by simp [hc])) e.2]

theorem HInv.lists {pb : Nat} {s : CS σ} {L : List Block} {B : List (Nat × Nat)} {A : AHeap} (H : HInv pb s L B A) :
    Lists s.w.mem pb A.pairs := by
  intro i hi
  have e : (A.pairs i).map Prod.fst = (A.fl i).map Ck.addr := by
    unfold AHeap.pairs; rw [List.map_map]; rfl
  refine ⟨by rw [e]; exact ⟨listWalk_iff.2 (H.inv.mem.lists i hi), H.wf.fl_nodup hi⟩, ?_⟩
  intro c hc
  obtain ⟨d, hd, rfl⟩ := List.mem_map.1 hc
  have hdH := H.wf.flHas i d hd
  obtain ⟨z, hm⟩ := H.inv.mem.hdr hdH
  have := hm.hdr.size
  rw [Ck.hdrSize_eq (H.wf.has_wf hdH).nstop] at this
  exact this.symm

theorem AHeap.WF.filter_pairs {pb : Nat} {A : AHeap} (W : A.WF pb) {c : Ck} (hc : A.Has c) (i : Nat) :
    (flDel A.fl [c] i).map Ck.pair = (A.pairs i).filter (fun x => decide (x ≠ c.pair)) := by
  unfold flDel AHeap.pairs
  rw [List.filter_map]
  congr 1
  refine List.filter_congr (fun d hd => ?_)
  simp only [List.mem_singleton, Function.comp, decide_eq_decide]
  refine not_congr ⟨fun h => by rw [h], fun h => ?_⟩
  exact W.addr_inj (W.flHas i d hd) hc (congrArg Prod.fst h)

/-- The search of the model is the choice of the specification. -/
theorem find_choice {pb : Nat} {A : AHeap} (W : A.WF pb) {k z : Nat} {c : Ck} (hk : IsClass z k) (h : A.find k z = some c) :
    Choice A.pairs k z c.pair := by
  unfold AHeap.find at h
  cases hf : (List.range' k (44 - k)).find? (fun i => decide (A.fl i ≠ [])) with
  | some j =>
    have hj := List.mem_range'_1.1 (List.mem_of_find?_eq_some hf)
    have hne : A.fl j ≠ [] := by simpa using List.find?_some hf
    rw [hf, Option.bind_some] at h
    obtain ⟨d, l, hdl⟩ := List.exists_cons_of_ne_nil hne
    have hd : d ∈ A.fl j := by rw [hdl]; simp
    have hzd : z ≤ d.size := by
      rcases W.flClass j d hd with ⟨_, _, h3, _⟩ | ⟨_, h4⟩
      · have := hk.2.1
        have : clsSize k ≤ clsSize j := clsSize_mono (by omega)
        have e1 : clsSize k = ftbl k := rfl
        have e2 : clsSize j = ftbl j := rfl
        omega
      · omega
    have hin : A.findIn j z = some d := by
      unfold AHeap.findIn
      rw [hdl, List.find?_cons_of_pos (by simpa using hzd)]
    rw [hin] at h
    simp only [Option.some.injEq] at h
    subst h
    refine Or.inl ⟨j, hj.1, by omega, ?_, by unfold AHeap.pairs; rw [hdl]; rfl⟩
    intro i h1 h2
    rw [List.find?_range'_eq_some] at hf
    have := hf.2.2 i h1 h2
    unfold AHeap.pairs
    simpa using this
  | none =>
    have hall : ∀ i, k ≤ i → i < 44 → A.pairs i = [] := by
      intro i h1 h2
      have := List.find?_eq_none.1 hf i (List.mem_range'_1.2 ⟨h1, by omega⟩)
      unfold AHeap.pairs
      simpa using this
    rw [hf] at h
    simp only [Option.bind_none] at h
    by_cases hk0 : k = 0
    · rw [if_neg (by simp [hk0])] at h; cases h
    rw [if_pos hk0] at h
    unfold AHeap.findIn at h
    obtain ⟨h1, l1, l2, h2, h3⟩ := List.find?_eq_some_iff_append.1 h
    refine Or.inr ⟨hall, by omega, l1.map Ck.pair, l2.map Ck.pair, ?_, by simpa [Ck.pair] using h1, ?_⟩
    · unfold AHeap.pairs; rw [h2]; simp
    · intro d hd
      obtain ⟨e, he, rfl⟩ := List.mem_map.1 hd
      have := h3 e he
      simpa [Ck.pair] using this

/-! ### Properties -/

/-- **C75** (allocation): in a reachable state with the lists `fl`, an allocation of `n` bytes takes the chunk that
`Choice` names, and none other; it returns 0 exactly if there is none. The chunk is used whole if less than 32 bytes
would be left, otherwise cut after the needed size, and the rest becomes the head of its list; the other chunks of all
the lists stay in their order. -/
theorem C75_taken {S : Source σ} {C : Config} {pb : Nat} {s s' : CS σ} {L : List Block} {B : List (Nat × Nat)} {b n r z : Nat}
    {fl fl' : Nat → List (Nat × Nat)} (hf : C.reallocFactor ≠ 0) (h : Reach S C pb s L B)
    (hv : ValidOp pb L B (.alloc b n)) (hn : n ≠ 0) (e : allocAlign S s b n = .ok (s', r))
    (hl : Lists s.w.mem pb fl) (hl' : Lists s'.w.mem pb fl') (hz : z = max 32 (n + (if 1 < b then b else 0) + 16)) :
    (r = 0 ∧ (∀ k, StartClass z k → NoChoice fl k z) ∧ ∀ i, i < 48 → fl' i = fl i) ∨
    ∃ k c t, StartClass z k ∧ Choice fl k z c ∧ c.1 + 16 ≤ r ∧ (b ≤ 1 → r = c.1 + 16) ∧ r + n ≤ c.1 + t ∧
      ((t = c.2 ∧ c.2 < round16 z + 32 ∧ ∀ i, i < 48 → fl' i = (fl i).filter (fun x => decide (x ≠ c))) ∨
       (t = round16 z ∧ t + 32 ≤ c.2 ∧ ∃ j, HomeClass (c.2 - t) j ∧ ∀ i, i < 48 →
          fl' i = (if i = j then [(c.1 + t, c.2 - t)] else []) ++ (fl i).filter (fun x => decide (x ≠ c)))) := by
  obtain ⟨A, H⟩ := reach_inv hf h
  obtain ⟨A', hA, H', g1, g2⟩ := H.alloc S hv.1 hv.2 e
  have eq1 : ∀ i, i < 48 → fl i = A.pairs i := fun i hi => hl.unique H.lists hi
  have eq2 : ∀ i, i < 48 → fl' i = A'.pairs i := fun i hi => hl'.unique H'.lists hi
  have hsz := sizeOK_aligned H.wf H.bufs hv.2
  have hal : alignedSize b n = n + (if 1 < b then b else 0) := by unfold alignedSize; split <;> omega
  have hcalc : calcChunkSize (alignedSize b n) = z := by
    rw [calc_eq (by omega), hz, hal]
  rcases hA with ⟨r0, hAA, hno⟩ | ⟨c, d, G, hr, hne⟩
  · refine Or.inl ⟨r0, fun k hk => ?_, fun i hi => by rw [eq1 i hi, eq2 i hi, hAA]⟩
    have hno := hno hn
    rw [hcalc] at hno
    have hk42 := hk.1
    have empty : ∀ i, k ≤ i → i < 44 → A.fl i = [] := by
      intro i h1 h2
      by_contra hc
      obtain ⟨d, l, hdl⟩ := List.exists_cons_of_ne_nil hc
      have hd : d ∈ A.fl i := by rw [hdl]; simp
      rcases H.wf.flClass i d hd with ⟨h5, _, h3, _⟩ | ⟨_, h4⟩
      · have h6 := hno d (H.wf.flHas i d hd) (H.wf.flFree i d hd) h5
        have h7 : clsSize k ≤ clsSize i := clsSize_mono h1
        have h8 := hk.2.1
        have e2 : clsSize i = ftbl i := rfl
        omega
      · omega
    refine ⟨fun i h1 h2 => ?_, fun hk0 x hx => ?_⟩
    · rw [eq1 i (by omega)]; unfold AHeap.pairs; rw [empty i h1 h2]; rfl
    · rw [eq1 _ (by omega)] at hx
      obtain ⟨d, hd, rfl⟩ := List.mem_map.1 hx
      rcases H.wf.flClass _ d hd with ⟨h5, _⟩ | ⟨_, h4⟩
      · exact hno d (H.wf.flHas _ d hd) (H.wf.flFree _ d hd) h5
      · omega
  · right
    obtain ⟨k, hk, hfind⟩ := G.pick
    have hmin := G.min
    have hle := G.le
    have hsmall := G.small
    rw [hcalc] at hk hfind hmin
    have hkc : IsClass z k := by
      rcases hk.2 with h | h
      · exact h
      · omega
    have hch := find_choice H.wf hkc hfind
    have hcs : cutSize (alignedSize b n) = round16 z := by unfold cutSize; rw [hcalc]; rfl
    have hk42 := hkc.1
    have hch' : Choice fl k z c.pair := by
      rcases hch with ⟨j, h1, h2, h3, h4⟩ | ⟨h1, h2, h3⟩
      · exact Or.inl ⟨j, h1, h2, fun i hi hj => by rw [eq1 i (by omega)]; exact h3 i hi hj, by rw [eq1 j (by omega)]; exact h4⟩
      · exact Or.inr ⟨fun i hi hj => by rw [eq1 i (by omega)]; exact h1 i hi hj, h2, by rw [eq1 _ (by omega)]; exact h3⟩
    have hup := H.wf.uptr_ge d
    have hfit := G.fit
    have haddr := G.addr
    refine ⟨k, c.pair, d.size, hkc, hch', ?_, ?_, ?_, ?_⟩
    · show c.addr + 16 ≤ r
      omega
    · intro hb
      show r = c.addr + 16
      have := G.ptr
      rw [if_pos (Or.inl hb)] at this
      omega
    · show r + n ≤ c.addr + d.size
      omega
    · have hcut := G.cut
      have htight := G.tight
      rw [hcs] at hcut htight
      have hfil : ∀ i, i < 48 → (flDel A.fl [c] i).map Ck.pair = (fl i).filter (fun x => decide (x ≠ c.pair)) := by
        intro i hi
        rw [H.wf.filter_pairs G.has, eq1 i hi]
      rcases G.lists with ⟨h1, h2⟩ | ⟨h1, j, h2, h3⟩
      · refine Or.inl ⟨h1, by show c.size < _; omega, fun i hi => ?_⟩
        rw [eq2 i hi]
        unfold AHeap.pairs
        rw [h2, hfil i hi]
      · have ht : d.size = round16 z := by omega
        have hres : A'.Has ⟨c.addr + d.size, c.size - d.size, .free⟩ := by
          refine G.wf.flHas j _ ?_
          rw [h3]; unfold updFl; rw [if_pos rfl]; simp
        have hge := (G.wf.has_wf hres).ge
        simp only at hge
        refine Or.inr ⟨ht, by show d.size + 32 ≤ c.size; omega, j, homeClass_of h2, fun i hi => ?_⟩
        rw [eq2 i hi]
        unfold AHeap.pairs
        rw [h3]
        unfold updFl
        by_cases hij : i = j
        · subst hij
          rw [if_pos rfl, if_pos rfl, List.map_cons, hfil i hi]; rfl
        · rw [if_neg hij, if_neg hij, hfil i hi]; rfl

/-- **C75** (free): in a reachable state with the lists `fl`, freeing the block `p` makes one free chunk `m` that covers
the block. The chunks that begin inside of `m` leave their lists, the others stay in their order, and `m` becomes the last
one of its list. -/
theorem C75_given {S : Source σ} {C : Config} {pb : Nat} {s s' : CS σ} {L : List Block} {B : List (Nat × Nat)} {l : Block}
    {fl fl' : Nat → List (Nat × Nat)} (hf : C.reallocFactor ≠ 0) (h : Reach S C pb s L B) (hl : l ∈ L)
    (e : chainFree S C s l.ptr = .ok s') (hl1 : Lists s.w.mem pb fl) (hl2 : Lists s'.w.mem pb fl') :
    ∃ m j, m.1 + 16 ≤ l.ptr ∧ l.ptr + l.len ≤ m.1 + m.2 ∧ HomeClass m.2 j ∧ ∀ i, i < 48 →
      fl' i = (fl i).filter (fun x => decide (x.1 < m.1 ∨ m.1 + m.2 ≤ x.1)) ++ (if i = j then [m] else []) := by
  obtain ⟨A, H⟩ := reach_inv hf h
  obtain ⟨c, hc, hptr, hlen, _⟩ := H.live.used l hl
  rw [← hptr] at e
  obtain ⟨A', R, H', _⟩ := H.free S C hc e
  obtain ⟨m, j, m1, m2, m3, m4, m5, m6⟩ := R.lists
  have hup := H.wf.uptr_ge c
  refine ⟨m.pair, j, by show m.addr + 16 ≤ _; omega, by show _ ≤ m.addr + m.size; omega, homeClass_of m5, fun i hi => ?_⟩
  rw [hl2.unique H'.lists hi, hl1.unique H.lists hi]
  have e1 : ∀ i, (flOut A.fl m i).map Ck.pair =
      (A.pairs i).filter (fun x => decide (x.1 < m.pair.1 ∨ m.pair.1 + m.pair.2 ≤ x.1)) := by
    intro i
    unfold flOut AHeap.pairs
    rw [List.filter_map]
    rfl
  rw [← e1]
  unfold AHeap.pairs
  rw [m6]
  unfold updFl
  by_cases hij : i = j
  · subst hij
    rw [if_pos rfl, if_pos rfl, List.map_append]; rfl
  · rw [if_neg hij, if_neg hij, List.append_nil]

/-! ### The order is neither that of the sizes nor that of the calls -/

theorem home_of {z j : Nat} (h : IsStoreClass z j) {k : Nat} (hk : HomeClass z k) : j = k := (homeClass_of h).unique hk

theorem home_small {z k : Nat} (hk : k ≤ 42) (h1 : clsSize k ≤ z) (h2 : z < clsSize (k + 1)) (h3 : z ≤ 2097152) : HomeClass z k := by
  refine Or.inl ⟨h3, hk, h1, fun i _ hz => ?_⟩
  by_contra hc
  have : clsSize (k + 1) ≤ clsSize i := clsSize_mono (by omega)
  omega

theorem start_small {z k : Nat} (hk : k ≤ 42) (h1 : z ≤ clsSize k) (h2 : k = 0 ∨ clsSize (k - 1) < z) : StartClass z k := by
  refine ⟨hk, h1, fun i hi => ?_⟩
  rcases h2 with h2 | h2
  · omega
  · have : clsSize i ≤ clsSize (k - 1) := clsSize_mono (by omega)
    omega

theorem Choice.unique {fl : Nat → List (Nat × Nat)} {k z : Nat} {c d : Nat × Nat} (h : Choice fl k z c) (h' : Choice fl k z d) :
    c = d := by
  rcases h with ⟨j, h1, h2, h3, h4⟩ | ⟨h1, h2, l1, l2, h3, h4, h5⟩ <;>
    rcases h' with ⟨j', g1, g2, g3, g4⟩ | ⟨g1, g2, m1, m2, g3, g4, g5⟩
  · have : j = j' := by
      rcases Nat.lt_trichotomy j j' with h | h | h
      · rw [g3 j h1 h] at h4; simp at h4
      · exact h
      · rw [h3 j' g1 h] at g4; simp at g4
    subst this
    rw [h4] at g4
    simpa using g4
  · rw [g1 j h1 h2] at h4; simp at h4
  · rw [h1 j' g1 g2] at g4; simp at g4
  · have key : ∀ (l1 m1 : List (Nat × Nat)), l1 ++ c :: l2 = m1 ++ d :: m2 → (∀ x ∈ l1, x.2 < z) → (∀ x ∈ m1, x.2 < z) → c = d := by
      intro l1
      induction l1 with
      | nil =>
        intro m1 e _ hm
        cases m1 with
        | nil => simp only [List.nil_append, List.cons.injEq] at e; exact e.1
        | cons x m1 =>
          simp only [List.nil_append, List.cons_append, List.cons.injEq] at e
          have := hm x (by simp)
          rw [← e.1] at this
          omega
      | cons y l1 ih =>
        intro m1 e hl hm
        cases m1 with
        | nil =>
          simp only [List.nil_append, List.cons_append, List.cons.injEq] at e
          have := hl y (by simp)
          rw [e.1] at this
          omega
        | cons x m1 =>
          simp only [List.cons_append, List.cons.injEq] at e
          exact ih m1 e.2 (fun x hx => hl x (by simp [hx])) (fun x hx => hm x (by simp [hx]))
    exact key l1 m1 (h3.symm.trans g3) h5 g5

/-- A freed chunk of `n + 16` bytes, a block of 16 bytes, and the rest of a buffer of 4 KB. -/
theorem sample_policy {n j : Nat} (h16 : 16 ∣ n) (hn : 16 ≤ n) (hn' : n ≤ 1000) (hj : HomeClass (n + 16) j) :
    ∃ (s : CS Unit) (L : List Block), Reach S0 Config.default 4096 s L [(8192, 4096)] ∧
      Lists s.w.mem 4096 (fun i => (if i = 32 then [(8272 + n, 4000 - n)] else []) ++ (if i = j then [(8224, n + 16)] else [])) := by
  obtain ⟨s0, s1, A0, A1, d, O⟩ := one_block (b := 0) (n := n) sampleBuf_4096 (Or.inl (by omega)) (by omega)
    (by simp; omega) (by omega)
  have hc0 : ∀ i, flDel A0.fl [⟨8192 + 32, 4096 - 48, .free⟩] i = [] := by
    intro i
    unfold flDel
    rw [List.filter_eq_nil_iff]
    intro x hx
    obtain ⟨g, hg, hxg⟩ := O.inv0.wf.flHas i x hx
    rw [O.inv0.one_seg O.merge0, List.mem_singleton] at hg
    subst hg
    simpa using hxg
  have hal : alignedSize 0 n = n := by unfold alignedSize; simp
  have hcalc : calcChunkSize n = n + 16 := by rw [calc_eq (by omega)]; omega
  have hcut : cutSize n = n + 16 := by unfold cutSize; rw [hcalc]; omega
  have hds : d.size = n + 16 := by
    have h1 := O.got.cut
    have h2 := O.got.tight
    rw [hal, hcut] at h1 h2
    simp only at h1
    omega
  have hda : d.addr = 8224 := O.got.addr
  have h32 : ∀ x, x ≤ 1100 → HomeClass (4048 - x) 32 := fun x hx =>
    home_small (by omega) (by simp only [clsSize]; norm_num; omega) (by simp only [clsSize]; norm_num; omega) (by omega)
  have hfl1 : ∀ i, A1.fl i = if i = 32 then [⟨8224 + (n + 16), 4048 - (n + 16), .free⟩] else [] := by
    intro i
    rcases O.got.lists with ⟨h1, _⟩ | ⟨_, j1, h2, h3⟩
    · simp only at h1; omega
    · rw [hds] at h2 h3
      have := home_of h2 (h32 _ (by omega))
      subst this
      rw [h3]
      unfold updFl
      split
      · rw [hc0]
      · exact hc0 i
  obtain ⟨s2, A2, d2, e2, G2, hne2, R2, H2, nm2⟩ := O.second (b' := 0) (n' := 16) (Or.inl (by omega)) (by omega)
    (by omega) (by simp; omega)
  have hal2 : alignedSize 0 16 = 16 := by unfold alignedSize; simp
  have hcalc2 : calcChunkSize 16 = 32 := by rw [calc_eq (by omega)]; rfl
  have hcut2 : cutSize 16 = 32 := by unfold cutSize; rw [hcalc2]
  have hds2 : d2.size = 32 := by
    have h1 := G2.cut
    have h2 := G2.tight
    rw [hal2, hcut2] at h1 h2
    simp only at h1
    omega
  have hda2 : d2.addr = 8240 + n := by
    have := G2.addr
    simp only at this
    omega
  have hfl2 : ∀ i, A2.fl i = if i = 32 then [⟨8272 + n, 4000 - n, .free⟩] else [] := by
    have hdel : ∀ i, flDel A1.fl [⟨8192 + 32 + d.size, 4096 - 48 - d.size, .free⟩] i = [] := by
      intro i
      unfold flDel
      rw [List.filter_eq_nil_iff]
      intro x hx
      rw [hfl1] at hx
      split at hx
      · rw [List.mem_singleton] at hx
        subst hx
        simp [hds]
      · simp at hx
    intro i
    rcases G2.lists with ⟨h1, _⟩ | ⟨_, j1, h2, h3⟩
    · simp only at h1; omega
    · simp only [hds2, hds] at h2 h3
      have := home_of h2 (by have := h32 (n + 48) (by omega); rwa [show 4096 - 48 - (n + 16) - 32 = 4048 - (n + 48) by omega])
      subst this
      rw [h3]
      rw [hds] at hdel
      unfold updFl
      split
      · rw [hdel]
        rw [show 8192 + 32 + (n + 16) + 32 = 8272 + n by omega, show 4096 - 48 - (n + 16) - 32 = 4000 - n by omega]
      · exact hdel i
  -- the first block is freed
  have hdU : A2.Used d := (G2.used d).2 (Or.inl O.used)
  have hov : ValidOp 4096 [⟨d2.uptr, 16, decide (0 ≤ 1)⟩, ⟨d.uptr, n, decide (0 ≤ 1)⟩] [(8192, 4096)] (.free d.uptr) :=
    Or.inr ⟨⟨d.uptr, n, decide (0 ≤ 1)⟩, by simp, rfl⟩
  obtain ⟨r3, A3', hs3⟩ := step_ok S0 Config.default default_factor H2.wf H2.bufs H2.live hov _ H2.noAdj
  obtain ⟨s3, e3, _⟩ := hs3 s2 H2 rfl trivial
  have R3 := R2.step hov trivial e3
  have e3' : chainFree S0 Config.default s2 d.uptr = .ok s3 := by
    simp only [exec] at e3
    obtain ⟨x, h1, h2⟩ := Outcome.bind_eq_ok e3
    have := Outcome.ok.inj h2
    rw [← (Prod.mk.inj this).1]
    exact h1
  obtain ⟨A3, F3, H3, _⟩ := H2.free S0 Config.default hdU e3'
  obtain ⟨m, j3, m1, m2, m3, m4, m5, m6⟩ := F3.lists
  have hd2U : A3.Used d2 := by
    refine (F3.used d2).2 ⟨(G2.used d2).2 (Or.inr rfl), ?_⟩
    intro h
    rw [h] at hda2
    omega
  have hmge := (F3.wf.has_wf m1).ge
  have hlow : 8224 ≤ m.addr := by
    obtain ⟨g, hg, hmg⟩ := m1
    have h1 := tiles_mem (F3.wf.seg g hg).tiles hmg
    have h2 := H3.segOf hg
    rw [List.mem_singleton] at h2
    have h3 := congrArg Prod.fst h2
    simp only at h3
    omega
  have hdis := F3.wf.has_disj m1 hd2U.1 (by rintro rfl; obtain ⟨p, hp⟩ := hd2U.2; rw [hp] at m2; cases m2)
  have hma : m.addr = 8224 := by omega
  have hms : m.size = n + 16 := by omega
  have hmm : m = ⟨8224, n + 16, .free⟩ := by
    obtain ⟨ma, ms, mst⟩ := m
    simp only at hma hms m2
    rw [hma, hms, m2]
  rw [hms] at m5
  have hjj := home_of m5 hj
  subst hjj
  refine ⟨s3, _, R3, ?_⟩
  have hout : ∀ i, flOut A2.fl m i = A2.fl i := by
    intro i
    unfold flOut
    rw [List.filter_eq_self]
    intro x hx
    rw [hfl2] at hx
    split at hx
    · rw [List.mem_singleton] at hx
      subst hx
      simp only [decide_eq_true_eq]
      omega
    · simp at hx
  have hp : A3.pairs = fun i => (if i = 32 then [(8272 + n, 4000 - n)] else []) ++ (if i = j3 then [(8224, n + 16)] else []) := by
    funext i
    unfold AHeap.pairs
    rw [m6]
    unfold updFl
    by_cases hi : i = j3
    · subst hi
      rw [if_pos rfl, if_pos rfl, hout, hfl2, hmm]
      split <;> rfl
    · rw [if_neg hi, if_neg hi, hout, hfl2]
      split <;> rfl
  rw [← hp]
  exact H3.lists

/-- A call that finds a chunk, in a state whose lists are known. -/
theorem policy_step {s : CS Unit} {L : List Block} {fl : Nat → List (Nat × Nat)} {n z k : Nat} {c : Nat × Nat}
    (R : Reach S0 Config.default 4096 s L [(8192, 4096)]) (hl : Lists s.w.mem 4096 fl) (hn : n ≠ 0) (hn' : n < 4096)
    (hz : z = max 32 (n + 16)) (hk : StartClass z k) (hc : Choice fl k z c) :
    ∃ s' L', allocAlign S0 s 0 n = .ok (s', c.1 + 16) ∧ Reach S0 Config.default 4096 s' L' [(8192, 4096)] ∧ ∃ fl', Lists s'.w.mem 4096 fl' ∧
      ∀ j, round16 z + 32 ≤ c.2 → HomeClass (c.2 - round16 z) j →
        ∀ i, i < 48 → fl' i = (if i = j then [(c.1 + round16 z, c.2 - round16 z)] else []) ++ (fl i).filter (fun x => decide (x ≠ c)) := by
  obtain ⟨A, H⟩ := reach_inv default_factor R
  have hov : ValidOp 4096 L [(8192, 4096)] (.alloc 0 n) := ⟨Or.inl (by omega), Or.inl (by simp; omega)⟩
  obtain ⟨r, A0, hs⟩ := step_ok S0 Config.default default_factor H.wf H.bufs H.live hov _ H.noAdj
  obtain ⟨s', e', H', _⟩ := hs s H rfl trivial
  have R' := R.step hov trivial e'
  have e : allocAlign S0 s 0 n = .ok (s', r) := e'
  obtain ⟨A', H'⟩ := reach_inv default_factor R'
  rcases C75_taken default_factor R hov hn e hl H'.lists (z := z) (by simpa using hz) with ⟨_, h1, _⟩ | ⟨k', c', t, h1, h2, _, h4, _, h6⟩
  · exfalso
    have := h1 k hk
    rcases hc with ⟨j, a1, a2, _, a4⟩ | ⟨_, a2, l1, l2, a3, a4, _⟩
    · rw [this.1 j a1 a2] at a4; simp at a4
    · have := this.2 a2 c (by rw [a3]; simp)
      omega
  · have := h1.unique hk
    subst this
    have := h2.unique hc
    subst this
    have hr := h4 (by omega)
    subst hr
    refine ⟨s', _, e, R', _, H'.lists, fun j hcut hj => ?_⟩
    rcases h6 with ⟨a1, a2, _⟩ | ⟨a1, a2, j', a3, a4⟩
    · omega
    · subst a1
      have := a3.unique hj
      subst this
      exact a4

/-- Not the smallest chunk that is large enough: a free chunk has exactly the size that is needed, and the call cuts
another one of 3968 bytes. -/
theorem C75_best_fit_refuted : ∃ (s s' : CS Unit) (L : List Block) (fl : Nat → List (Nat × Nat)),
    Reach S0 Config.default 4096 s L [(8192, 4096)] ∧ Lists s.w.mem 4096 fl ∧ (8224, 48) ∈ fl 0 ∧ (8304, 3968) ∈ fl 32 ∧
    allocAlign S0 s 0 32 = .ok (s', 8304 + 16) := by
  obtain ⟨s, L, R, hl⟩ := sample_policy (n := 32) (j := 0) (by omega) (by omega) (by omega)
    (home_small (by omega) (by decide) (by decide) (by omega))
  obtain ⟨s', L', e, _⟩ := policy_step (n := 32) (z := 48) (k := 1) (c := (8304, 3968)) R hl (by omega) (by omega) (by omega)
    (start_small (by omega) (by decide) (Or.inr (by decide)))
    (Or.inl ⟨32, by omega, by omega, fun i h1 h2 => by simp only; rw [if_neg (by omega), if_neg (by omega)]; rfl, rfl⟩)
  exact ⟨s, s', L, _, R, hl, by simp, by simp, e⟩

/-- Not the oldest chunk of the list: a chunk is free, the next call leaves a rest of the same size in the same list, and
the call after that takes the rest. -/
theorem C75_fifo_refuted : ∃ (s s1 s2 : CS Unit) (L L1 : List Block) (r : Nat) (fl fl1 : Nat → List (Nat × Nat)),
    Reach S0 Config.default 4096 s L [(8192, 4096)] ∧ Lists s.w.mem 4096 fl ∧ fl 1 = [(8224, 64)] ∧
    allocAlign S0 s 0 3872 = .ok (s1, r) ∧ Reach S0 Config.default 4096 s1 L1 [(8192, 4096)] ∧ Lists s1.w.mem 4096 fl1 ∧
    fl1 1 = [(12208, 64), (8224, 64)] ∧ allocAlign S0 s1 0 48 = .ok (s2, 12208 + 16) := by
  obtain ⟨s, L, R, hl⟩ := sample_policy (n := 48) (j := 1) (by omega) (by omega) (by omega)
    (home_small (by omega) (by decide) (by decide) (by omega))
  obtain ⟨s1, L1, e1, R1, fl1, hl1, h1⟩ := policy_step (n := 3872) (z := 3888) (k := 33) (c := (8320, 3952)) R hl
    (by omega) (by omega) (by omega) (start_small (by omega) (by decide) (Or.inr (by decide)))
    (Or.inr ⟨fun i h1 h2 => by simp only; rw [if_neg (by omega), if_neg (by omega)]; rfl, by omega, [], [], rfl, by decide, by simp⟩)
  have h1' : fl1 1 = [(12208, 64), (8224, 64)] :=
    h1 1 (by decide) (home_small (by omega) (by decide) (by decide) (by decide)) 1 (by omega)
  obtain ⟨s2, L2, e2, _⟩ := policy_step (n := 48) (z := 64) (k := 1) (c := (12208, 64)) R1 hl1
    (by omega) (by omega) (by omega) (start_small (by omega) (by decide) (Or.inr (by decide)))
    (Or.inl ⟨1, by omega, by omega, fun i h1 h2 => by omega, by rw [h1']; rfl⟩)
  exact ⟨s, s1, s2, L, L1, _, _, fl1, R, hl, rfl, e1, R1, hl1, h1', e2⟩

/-! ### Examples -/

example : ∃ (s s' : CS Unit) (L : List Block) (r : Nat) (fl fl' : Nat → List (Nat × Nat)),
    Reach S0 Config.default 4096 s L [(8192, 4096)] ∧ ValidOp 4096 L [(8192, 4096)] (.alloc 0 32) ∧
    allocAlign S0 s 0 32 = .ok (s', r) ∧ Lists s.w.mem 4096 fl ∧ Lists s'.w.mem 4096 fl' ∧
    fl 0 = [(8224, 48)] ∧ fl 32 = [(8304, 3968)] ∧ fl' 0 = [(8224, 48)] ∧ fl' 32 = [(8352, 3920)] := by
  obtain ⟨s, L, R, hl⟩ := sample_policy (n := 32) (j := 0) (by omega) (by omega) (by omega)
    (home_small (by omega) (by decide) (by decide) (by omega))
  obtain ⟨s', L', e, _, fl', hl', h⟩ := policy_step (n := 32) (z := 48) (k := 1) (c := (8304, 3968)) R hl (by omega) (by omega) (by omega)
    (start_small (by omega) (by decide) (Or.inr (by decide)))
    (Or.inl ⟨32, by omega, by omega, fun i h1 h2 => by simp only; rw [if_neg (by omega), if_neg (by omega)]; rfl, rfl⟩)
  have h' := h 32 (by decide) (home_small (by omega) (by decide) (by decide) (by decide))
  exact ⟨s, s', L, _, _, fl', R, ⟨Or.inl (by omega), Or.inl (by simp)⟩, e, hl, hl', rfl, rfl, h' 0 (by omega), h' 32 (by omega)⟩

example : ∃ (s s' : CS Unit) (L : List Block) (l : Block) (fl fl' : Nat → List (Nat × Nat)),
    Reach S0 Config.default 4096 s L [(8192, 4096)] ∧ l ∈ L ∧ chainFree S0 Config.default s l.ptr = .ok s' ∧
    Lists s.w.mem 4096 fl ∧ Lists s'.w.mem 4096 fl' := by
  obtain ⟨s, p, q, _, _, R, _⟩ := two_blocks
  obtain ⟨A, H⟩ := reach_inv default_factor R
  have hov : ValidOp 4096 [⟨q, 200, false⟩, ⟨p, 100, true⟩] [(8192, 4096)] (.free p) := Or.inr ⟨⟨p, 100, true⟩, by simp, rfl⟩
  obtain ⟨r, A', hs⟩ := step_ok S0 Config.default default_factor H.wf H.bufs H.live hov _ H.noAdj
  obtain ⟨s', e, _⟩ := hs s H rfl trivial
  obtain ⟨A1, H1⟩ := reach_inv default_factor (R.step hov trivial e)
  simp only [exec] at e
  obtain ⟨x, h1, h2⟩ := Outcome.bind_eq_ok e
  have h3 := (Prod.mk.inj (Outcome.ok.inj h2)).1
  rw [h3] at h1
  exact ⟨s, s', _, ⟨p, 100, true⟩, _, _, R, by simp, h1, H.lists, H1.lists⟩

end MpcAlloc
