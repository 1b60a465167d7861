import Verif.EndsLemmas

/-
The process with marked chains: the calls that do not touch the marked chains commute with the marks, and those that do are
the calls of the owner.
-/

namespace MpcAlloc

variable {Ω : Env}

/-- The marks: `none` for a thread that runs, whether the chain was released for one that has ended. -/
abbrev Marks := Nat → Option Bool

/-- A chain with its mark. -/
def Chain.mark (c : Chain) : Option Bool → Chain
  | none => c
  | some k => c.marked k false

theorem Chain.mark_addr (c : Chain) (k : Option Bool) : (c.mark k).addr = c.addr := by cases k <;> rfl

/-- The process with the chains marked. -/
def PS.marks (s : PS) (μ : Marks) : PS := ⟨s.w, s.chs.mapIdx (fun i c => c.mark (μ i))⟩

/-- The same for the result of a call. -/
def marksR (μ : Marks) (x : Outcome (PS × Nat)) : Outcome (PS × Nat) := do
  let (s, r) ← x
  return (s.marks μ, r)

/-- Another mark for `t`. -/
def setMark (μ : Marks) (t : Nat) (k : Bool) : Marks := fun i => if i = t then some k else μ i

theorem PS.marks_get (s : PS) (μ : Marks) (i : Nat) : (s.marks μ).chs[i]? = (s.chs[i]?).map (fun c => c.mark (μ i)) := by
  unfold PS.marks; simp only; rw [List.getElem?_mapIdx]

theorem PS.marks_len (s : PS) (μ : Marks) : (s.marks μ).chs.length = s.chs.length := by
  unfold PS.marks; simp

theorem PS.marks_loc {s : PS} {μ : Marks} {u : Nat} (h : μ u = none) : (s.marks μ).loc u = s.loc u := by
  unfold PS.loc
  rw [PS.marks_get, h]
  cases s.chs[u]? <;> rfl

theorem PS.marks_put {s : PS} {μ : Marks} {u : Nat} (v : CS Light) (h : μ u = none) :
    (s.marks μ).put u v = (s.put u v).marks μ := by
  unfold PS.put PS.marks
  simp only
  congr 1
  refine List.ext_getElem? fun i => ?_
  rw [List.getElem?_mapIdx]
  by_cases hi : u = i
  · subst hi
    rw [List.getElem?_set, List.getElem?_set, if_pos rfl, if_pos rfl, List.length_mapIdx, h]
    split <;> rfl
  · rw [List.getElem?_set_ne hi, List.getElem?_set_ne hi, List.getElem?_mapIdx]

/-- The chain of `t` changes and gets a new mark. -/
theorem PS.marks_put_marked {s : PS} {μ : Marks} {t : Nat} (v : CS Light) (k : Bool) :
    (s.marks μ).put t (v.marked k false) = (s.put t v).marks (setMark μ t k) := by
  unfold PS.put PS.marks
  simp only
  congr 1
  refine List.ext_getElem? fun i => ?_
  rw [List.getElem?_mapIdx]
  by_cases hi : t = i
  · subst hi
    rw [List.getElem?_set, List.getElem?_set, if_pos rfl, if_pos rfl, List.length_mapIdx]
    unfold setMark
    rw [if_pos rfl]
    split <;> rfl
  · rw [List.getElem?_set_ne hi, List.getElem?_set_ne hi, List.getElem?_mapIdx]
    unfold setMark
    rw [if_neg (Ne.symm hi)]

/-- Search of a chain by address: the marks do not change the addresses. -/
theorem PS.marks_chainAt (s : PS) (μ : Marks) (a : Nat) : (s.marks μ).chainAt a = s.chainAt a := by
  have e : ∀ l : List Chain, l.findIdx? (fun c => decide (c.addr = a)) =
      (l.map Chain.addr).findIdx? (fun x => decide (x = a)) := by
    intro l; rw [List.findIdx?_map]; rfl
  have : (s.marks μ).chs.map Chain.addr = s.chs.map Chain.addr := by
    refine List.ext_getElem? fun i => ?_
    rw [List.getElem?_map, PS.marks_get, List.getElem?_map]
    cases s.chs[i]? with
    | none => rfl
    | some c => simp [Chain.mark_addr]
  unfold PS.chainAt
  rw [e, e, this]

theorem marks_memalign (C : Config) (s : PS) {u : Nat} (μ : Marks) (b n : Nat) (h : μ u = none) :
    posixMemalign C (s.marks μ) u b n = marksR μ (posixMemalign C s u b n) := by
  unfold posixMemalign marksR
  rw [PS.marks_loc h]
  cases s.loc u <;> try rfl
  simp only [Outcome.ok_bind]
  rename_i x
  cases purgeRfq (lightSource C) C x <;> try rfl
  simp only [Outcome.ok_bind]
  rename_i y
  cases allocAlign (lightSource C) y b (if n = 0 then 1 else n) <;> try rfl
  rename_i z
  obtain ⟨z, r⟩ := z
  simp only [Outcome.ok_bind, Outcome.pure_eq, PS.marks_put z h]

theorem marks_calloc (C : Config) (s : PS) {u : Nat} (μ : Marks) (b n k : Nat) (h : μ u = none) :
    posixCalloc C b (s.marks μ) u n k = marksR μ (posixCalloc C b s u n k) := by
  unfold posixCalloc
  rw [posixMalloc_eq, posixMalloc_eq, marks_memalign C s μ _ _ h]
  unfold marksR
  cases posixMemalign C s u b (n * k % W64) <;> try rfl
  rename_i z
  obtain ⟨z, r⟩ := z
  simp only [Outcome.ok_bind, Outcome.pure_eq]
  have : (z.marks μ).w.mem = z.w.mem := rfl
  rw [this]
  cases memZero z.w.mem r (n * k % W64) <;> rfl

theorem marks_spawn (s : PS) (μ : Marks) (a z pb : Nat) (ht : μ s.chs.length = none) :
    posixSpawn (s.marks μ) a z pb = (do let s' ← posixSpawn s a z pb; return s'.marks μ) := by
  unfold posixSpawn
  have : ((s.marks μ).reserve a z).w = (s.reserve a z).w := rfl
  simp only
  rw [this]
  cases userInit (s.reserve a z).w a pb 0 0 false false false <;> try rfl
  simp only [Outcome.ok_bind, Outcome.pure_eq]
  unfold PS.marks PS.reserve
  simp only
  rw [List.mapIdx_append]
  simp [ht, Chain.mark]

/-- Thread `u` frees a block of a thread that runs. -/
theorem marks_free {C : Config} {cl : Prop} {s : PS} {G : PSpec} {μ : Marks} {u p : Nat} (I : PInv Ω cl s G)
    (hu : u < s.chs.length) (h : μ u = none)
    (hp : p = 0 ∨ ∃ l ∈ G.live, l.ptr = p ∧ μ l.owner = none) :
    posixFree C (s.marks μ) u p = (do let s' ← posixFree C s u p; return s'.marks μ) := by
  have hcu := List.getElem?_eq_getElem hu
  obtain ⟨v, e1, I1, _, ad, _⟩ := purge_eff (C := C) I hcu
  unfold posixFree
  rw [PS.marks_loc h, PS.loc_eq hcu, Outcome.ok_bind, Outcome.ok_bind, e1, Outcome.ok_bind, Outcome.ok_bind]
  simp only [PS.marks_put v h]
  by_cases hz : p = 0
  · rw [if_pos hz, if_pos hz]; rfl
  rw [if_neg hz, if_neg hz]
  obtain ⟨l, hl, hlp, hlo⟩ := hp.resolve_left hz
  subst hlp
  obtain ⟨R, b, d, e2, hb, e3, hcz, hc2, e4, hts, I2, hpz⟩ := lookup_eff I1 (show l ∈ (G.drain u).live from hl)
  have e2' : regionGetMacroBloc ((s.put u v).marks μ).w.mem ((s.put u v).marks μ).w.regs l.ptr = .ok (R, b) := e2
  rw [e2', e2, Outcome.ok_bind, Outcome.ok_bind]
  simp only
  rw [if_neg hb, if_neg hb]
  have e3' : readLE ((s.put u v).marks μ).w.mem (b + 16) 8 = d.addr := e3
  rw [e3', e3, if_neg hcz, if_neg hcz]
  have e4' : PS.chainAt { w := { (s.put u v).w with regs := R }, chs := (s.put u v).chs } d.addr = .ok l.owner := e4
  have e5 : PS.chainAt { w := { ((s.put u v).marks μ).w with regs := R }, chs := ((s.put u v).marks μ).chs } d.addr =
      .ok l.owner := by
    rw [← e4]
    exact PS.marks_chainAt ((s.put u v).setRegs R) μ _
  rw [e4', e5, Outcome.ok_bind, Outcome.ok_bind]
  have e6 : PS.loc { w := { ((s.put u v).marks μ).w with regs := R }, chs := ((s.put u v).marks μ).chs } l.owner =
      PS.loc { w := { (s.put u v).w with regs := R }, chs := (s.put u v).chs } l.owner :=
    PS.marks_loc (s := (s.put u v).setRegs R) hlo
  rw [e6]
  cases PS.loc { w := { (s.put u v).w with regs := R }, chs := (s.put u v).chs } l.owner <;> try rfl
  simp only [Outcome.ok_bind]
  rename_i x
  cases (if x.c.threadSafe = true ∨ d.addr = v.c.addr then chainFree (lightSource C) C x l.ptr else rfqRegister x l.ptr) <;>
    try rfl
  simp only [Outcome.ok_bind, Outcome.pure_eq]
  exact congrArg Outcome.ok (PS.marks_put (s := (s.put u v).setRegs R) _ hlo)

/-- Copy to a new block. -/
theorem marks_reallocInter {C : Config} {cl : Prop} {s : PS} {G : PSpec} {μ : Marks} {u hook n : Nat} {l : PBlock}
    (I : PInv Ω cl s G) (hu : u < s.chs.length) (h : μ u = none)
    (hl : l ∈ G.live) (hlo : μ l.owner = none) (hn : n ≠ 0) (hb : GoodBound hook) (hsz : PSize (reqSize hook n))
    (hcl : cl → CleanSize (reqSize hook n)) :
    posixReallocInter C hook (s.marks μ) u l.ptr n = marksR μ (posixReallocInter C hook s u l.ptr n) := by
  unfold posixReallocInter
  rw [if_pos hn, if_pos hn, posixMalloc_eq, posixMalloc_eq, marks_memalign C s μ _ _ h]
  have hpz := I.ptr hl
  rcases memalign_op (C := C) I hu hb hsz hcl with ⟨_, e1⟩ | ⟨s1, r, e1, hr, a1, a2, I1, k1, len1⟩
  · rw [e1]; rfl
  have hl1 : l ∈ ((G.drain u).add u r n (decide (hook ≤ 1))).live := (add_live hr).2 (Or.inr hl)
  have hr1 : (⟨u, r, n, decide (hook ≤ 1)⟩ : PBlock) ∈ ((G.drain u).add u r n (decide (hook ≤ 1))).live :=
    (add_live hr).2 (Or.inl rfl)
  have hrp : r ≠ l.ptr := by
    intro h
    obtain ⟨_, _, _, _, K⟩ := I1
    have hnd := K.nodup
    unfold PSpec.add at hnd
    rw [if_neg hr] at hnd
    exact (List.pairwise_cons.1 hnd).1 l (List.mem_append_left _ hl) h
  obtain ⟨z, e2, hz1, hz2⟩ := getSize_op I1 hl1
  have hdj := hz2 _ hr1 hrp
  simp only at hdj
  have hcnt : (if n < z then n else z) = min n z := by split <;> omega
  obtain ⟨m2, e3, cp, f2⟩ := memCopy_ok (m := s1.w.mem) (dst := r) (src := l.ptr) (n := min n z) (by omega)
  obtain ⟨I2, k2⟩ := store_eff (m' := m2) I1 hr1 (fun x hx => f2 x (by unfold PBlock.Byte at hx; simp only at hx; omega))
  have e4 := marks_free (C := C) (μ := μ) (u := u) (p := l.ptr) I2 (by show u < s1.chs.length; omega) h
    (Or.inr ⟨l, hl1, rfl, hlo⟩)
  rw [e1]
  unfold marksR
  rw [Outcome.ok_bind, Outcome.ok_bind]
  simp only [Outcome.pure_eq, Outcome.ok_bind]
  have e2' : posixGetSize (s1.marks μ).w.mem l.ptr = .ok z := e2
  have e3' : memCopy (s1.marks μ).w.mem r l.ptr (min n z) = .ok m2 := e3
  rw [if_pos ⟨hr, hpz⟩, if_pos ⟨hr, hpz⟩, e2', e2, Outcome.ok_bind, Outcome.ok_bind, hcnt, e3', e3, Outcome.ok_bind,
    Outcome.ok_bind, Outcome.ok_bind, Outcome.ok_bind, if_pos hpz, if_pos hpz]
  have e5 : (s1.marks μ).setMem m2 = (s1.setMem m2).marks μ := rfl
  rw [e5, e4]
  cases posixFree C (s1.setMem m2) u l.ptr <;> rfl

theorem marks_realloc {C : Config} {cl : Prop} {s : PS} {G : PSpec} {μ : Marks} {u hook n : Nat} {l : PBlock}
    (I : PInv Ω cl s G) (hu : u < s.chs.length) (h : μ u = none)
    (hl : l ∈ G.live) (hlo : μ l.owner = none) (hn : n ≠ 0) (hb : GoodBound hook) (hsz : PSize (reqSize hook n))
    (hcl : cl → CleanSize (reqSize hook n)) :
    posixRealloc C hook (s.marks μ) u l.ptr n = marksR μ (posixRealloc C hook s u l.ptr n) := by
  have hcu := List.getElem?_eq_getElem hu
  obtain ⟨R, b, d, e2, hb0, e3, hcz, hc2, e4, hts, I2, hpz⟩ := lookup_eff I hl
  unfold posixRealloc
  rw [if_neg hpz, if_neg hpz, if_neg hn, if_neg hn, PS.marks_loc h, PS.loc_eq hcu, Outcome.ok_bind, Outcome.ok_bind]
  have e2' : regionGetMacroBloc (s.marks μ).w.mem (s.marks μ).w.regs l.ptr = .ok (R, b) := e2
  rw [e2', e2, Outcome.ok_bind, Outcome.ok_bind]
  simp only
  rw [if_neg hb0, if_neg hb0]
  have e3' : readLE (s.marks μ).w.mem (b + 16) 8 = d.addr := e3
  rw [e3', e3, if_neg hcz, if_neg hcz]
  have e4' : PS.chainAt { w := { s.w with regs := R }, chs := s.chs } d.addr = .ok l.owner := e4
  have e5 : PS.chainAt { w := { (s.marks μ).w with regs := R }, chs := (s.marks μ).chs } d.addr = .ok l.owner := by
    rw [← e4]
    exact PS.marks_chainAt (s.setRegs R) μ _
  rw [e4', e5, Outcome.ok_bind, Outcome.ok_bind]
  have e6 : PS.loc { w := { (s.marks μ).w with regs := R }, chs := (s.marks μ).chs } l.owner =
      PS.loc { w := { s.w with regs := R }, chs := s.chs } l.owner :=
    PS.marks_loc (s := s.setRegs R) hlo
  rw [e6]
  cases PS.loc { w := { s.w with regs := R }, chs := s.chs } l.owner <;> try rfl
  rename_i x
  rw [Outcome.ok_bind, Outcome.ok_bind]
  by_cases hx : d.addr = s.chs[u].addr ∨ x.c.threadSafe = true
  · rw [if_pos hx, if_pos hx]
    cases chainRealloc (lightSource C) C hook x l.ptr n <;> try rfl
    rename_i y
    obtain ⟨y, r⟩ := y
    simp only [Outcome.ok_bind, Outcome.pure_eq, marksR]
    exact congrArg (fun z => Outcome.ok (z, r)) (PS.marks_put (s := s.setRegs R) _ hlo)
  · rw [if_neg hx, if_neg hx]
    exact marks_reallocInter (s := s.setRegs R) I2 hu h hl hlo hn hb hsz hcl

/-- Thread `u` resizes a block of a thread that has ended: what the owner would have done. -/
theorem marks_realloc_ended {C : Config} {cl : Prop} {s : PS} {G : PSpec} {μ : Marks} {u hook n : Nat} {l : PBlock}
    (hf : C.reallocFactor ≠ 0) (I : PInv Ω cl s G) (hu : u < s.chs.length) (h : μ u = none)
    (hl : l ∈ G.live) (hlo : μ l.owner = some false) (hn : n ≠ 0) (hb : GoodBound hook) (hsz : PSize (reqSize hook n))
    (hcl : cl → CleanSize (reqSize hook n)) (hsafe : l.plain = true ∨ n ≤ l.len) :
    posixRealloc C hook (s.marks μ) u l.ptr n = marksR μ (posixRealloc C hook s l.owner l.ptr n) ∧
      ∀ s' r, posixRealloc C hook s l.owner l.ptr n = .ok (s', r) →
        ∃ c, s.chs[l.owner]? = some c ∧ ∃ c', s'.chs[l.owner]? = some c' ∧ 0 < c.cnt ∧ 0 < c'.cnt ∧ c'.rfqHead = c.rfqHead ∧
          ∀ i, i ≠ l.owner → s'.chs[i]? = s.chs[i]? := by
  have hcu := List.getElem?_eq_getElem hu
  obtain ⟨R, b, d, e2, hb0, e3, hcz, hc2, e4, hts, I2, hpz⟩ := lookup_eff I hl
  have ho := (List.getElem?_eq_some_iff.1 hc2).1
  have hc3 : (s.setRegs R).chs[l.owner]? = some d := hc2
  obtain ⟨q, hcalls, hcnt, hclv⟩ := I2.chain hc3
  have hpos := hclv l hl rfl
  -- the call of the owner
  have eo : posixRealloc C hook s l.owner l.ptr n = (do
      let (y, r) ← chainRealloc (lightSource C) C hook ⟨(s.setRegs R).w, d⟩ l.ptr n
      return ((s.setRegs R).put l.owner y, r)) := by
    unfold posixRealloc
    rw [if_neg hpz, if_neg hn, PS.loc_eq hc2, Outcome.ok_bind, e2, Outcome.ok_bind]
    simp only
    rw [if_neg hb0, e3, if_neg hcz]
    have e4' : PS.chainAt { w := { s.w with regs := R }, chs := s.chs } d.addr = .ok l.owner := e4
    have e6 : PS.loc { w := { s.w with regs := R }, chs := s.chs } l.owner = .ok ⟨(s.setRegs R).w, d⟩ := PS.loc_eq hc3
    rw [e4', Outcome.ok_bind, e6, Outcome.ok_bind, if_pos (Or.inl rfl)]
    rfl
  -- the call of `u`
  have eu : posixRealloc C hook (s.marks μ) u l.ptr n = (do
      let (y, r) ← chainRealloc (lightSource C) C hook (CS.marked ⟨(s.setRegs R).w, d⟩ false false) l.ptr n
      return (((s.setRegs R).marks μ).put l.owner y, r)) := by
    unfold posixRealloc
    rw [if_neg hpz, if_neg hn, PS.marks_loc h, PS.loc_eq hcu, Outcome.ok_bind]
    have e2' : regionGetMacroBloc (s.marks μ).w.mem (s.marks μ).w.regs l.ptr = .ok (R, b) := e2
    rw [e2', Outcome.ok_bind]
    simp only
    have e3' : readLE (s.marks μ).w.mem (b + 16) 8 = d.addr := e3
    rw [if_neg hb0, e3', if_neg hcz]
    have e5 : PS.chainAt { w := { (s.marks μ).w with regs := R }, chs := (s.marks μ).chs } d.addr = .ok l.owner := by
      rw [← e4]
      exact PS.marks_chainAt (s.setRegs R) μ _
    have e6 : PS.loc { w := { (s.marks μ).w with regs := R }, chs := (s.marks μ).chs } l.owner =
        .ok (CS.marked ⟨(s.setRegs R).w, d⟩ false false) := by
      have : ((s.setRegs R).marks μ).chs[l.owner]? = some (d.marked false false) := by
        rw [PS.marks_get, hc3, hlo]; rfl
      exact PS.loc_eq this
    have hts' : (CS.marked ⟨(s.setRegs R).w, d⟩ false false).c.threadSafe = true := rfl
    rw [e5, Outcome.ok_bind, e6, Outcome.ok_bind, if_pos (Or.inr hts')]
    rfl
  obtain ⟨m1, m2⟩ := Ends.chainRealloc_marked (S := lightSource C) (C := C) q (h := hook) hpz hn
  have hmark : setMark μ l.owner false = μ := by
    funext i
    unfold setMark
    split
    · rename_i hi; subst hi; exact hlo.symm
    · rfl
  rcases realloc_op (C := C) I ho hl hn hf hb hsz hcl (Or.inr hsafe) with ⟨_, e⟩ | ⟨s', r, e, hr, I', _, _, _, hlen⟩
  · rw [e]
    refine ⟨?_, fun _ _ h => by cases h⟩
    rw [eo] at e
    rw [eu]
    cases e7 : chainRealloc (lightSource C) C hook ⟨(s.setRegs R).w, d⟩ l.ptr n <;> rw [e7] at e <;> try cases e
    rw [m1 e7]; rfl
  · rw [e]
    have e0 := e
    rw [eo] at e
    obtain ⟨⟨y, r'⟩, e7, e⟩ := Outcome.bind_eq_ok e
    obtain ⟨rfl, rfl⟩ := Prod.mk.inj (Outcome.ok.inj e)
    have hc' : ((s.setRegs R).put l.owner y).chs[l.owner]? = some y.c := PS.put_get y ho
    have hlive : ∃ l' ∈ (G.after (.realloc l.owner l.ptr hook n) r').live, l'.owner = l.owner := by
      unfold PSpec.after
      simp only
      rw [if_neg hpz, if_neg hn]
      have hm : G.mine l.owner l.ptr = true := by
        unfold PSpec.mine
        rw [List.any_eq_true]
        exact ⟨l, hl, by simp⟩
      rw [if_pos hm]
      split
      · exact ⟨{ l with len := n }, List.mem_map.2 ⟨l, hl, if_pos rfl⟩, rfl⟩
      · exact ⟨⟨l.owner, r', n, decide (hook ≤ 1)⟩, (add_live hr).2 (Or.inl rfl), rfl⟩
    obtain ⟨l', hl', hlo'⟩ := hlive
    have hpos' := (I'.chain hc').2.2.2 l' hl' hlo'
    have fl := Ends.chainRealloc_flags q hpz hn e7
    refine ⟨?_, fun s2 r2 h2 => ?_⟩
    · rw [eu, m2 y r' e7 (by omega), Outcome.ok_bind]
      simp only
      rw [PS.marks_put_marked, hmark]
      rfl
    · obtain ⟨rfl, rfl⟩ := Prod.mk.inj (Outcome.ok.inj h2)
      refine ⟨d, hc2, y.c, hc', hpos, hpos', fl.2.2.2.2, fun i hi => ?_⟩
      unfold PS.put PS.setRegs
      simp only
      rw [List.getElem?_set_ne (Ne.symm hi)]

/-- Thread `u` frees a block of a thread that has ended. `s'` is the process without marks; `hg` tells whether the block is
beyond the huge limit, so that the lock of the chain is not taken. -/
theorem marks_free_ended {C : Config} {cl : Prop} {s : PS} {G : PSpec} {μ : Marks} {u : Nat} {l : PBlock}
    (I : PInv Ω cl s G) (hu : u < s.chs.length) (h : μ u = none) (hl : l ∈ G.live) (hlo : μ l.owner = some false) :
    ∃ s' c c', s.chs[l.owner]? = some c ∧ PInv Ω cl s' ((G.drain u).del l.owner l.ptr) ∧ s'.chs[l.owner]? = some c' ∧
      c'.rfqHead = c.rfqHead ∧ 0 < c.cnt ∧ c'.cnt ≤ c.cnt ∧ (∀ i, i ≠ u → i ≠ l.owner → s'.chs[i]? = s.chs[i]?) ∧
      Keeps s s' G (fun m => m.ptr ≠ l.ptr) ∧ s'.chs.length = s.chs.length ∧
      ∃ hg : Prop, (l.plain = true → ∀ z, posixGetSize s.w.mem l.ptr = .ok z → (hg ↔ calcChunkSize (z + 16) > 1048576)) ∧
      ((c'.cnt = 0 ∧ ¬ hg ∧ posixFree C (s.marks μ) u l.ptr = .ub) ∨
      ((c'.cnt = 0 → hg) ∧
        posixFree C (s.marks μ) u l.ptr = .ok (s'.marks (setMark μ l.owner (decide (c'.cnt = 0)))))) := by
  have hne : u ≠ l.owner := fun e => by rw [← e, h] at hlo; cases hlo
  have hcu := List.getElem?_eq_getElem hu
  obtain ⟨v, e1, I1, k1, ad, _⟩ := purge_eff (C := C) I hcu
  have hz := purge_usable I hcu e1 hl (Ne.symm hne)
  obtain ⟨R, b, d, e2, hb, e3, hcz, hc2, e4, hts, I2, hpz⟩ := lookup_eff I1 (show l ∈ (G.drain u).live from hl)
  have hc0 : s.chs[l.owner]? = some d := by
    have := hc2
    unfold PS.put at this
    simp only at this
    rw [List.getElem?_set_ne hne] at this
    exact this
  have hc3 : ((s.put u v).setRegs R).chs[l.owner]? = some d := hc2
  have hl2 : l ∈ (G.drain u).live := hl
  obtain ⟨x, e6, I3, k3⟩ := free_eff (C := C) I2 hl2 hc3
  obtain ⟨q, hcalls, hcnt, hcl⟩ := I2.chain hc3
  have hcnt2 := hcl l hl2 rfl
  have keep := chainFree_keep q e6
  have hex : posixFree C (s.marks μ) u l.ptr = (do
      let y ← chainFree (lightSource C) C (CS.marked ⟨((s.put u v).setRegs R).w, d⟩ false false) l.ptr
      return (((s.put u v).setRegs R).marks μ).put l.owner y) := by
    unfold posixFree
    rw [PS.marks_loc h, PS.loc_eq hcu, Outcome.ok_bind, e1, Outcome.ok_bind]
    simp only [PS.marks_put v h]
    rw [if_neg hpz]
    have e2' : regionGetMacroBloc ((s.put u v).marks μ).w.mem ((s.put u v).marks μ).w.regs l.ptr = .ok (R, b) := e2
    rw [e2', Outcome.ok_bind]
    simp only
    rw [if_neg hb]
    have e3' : readLE ((s.put u v).marks μ).w.mem (b + 16) 8 = d.addr := e3
    rw [e3', if_neg hcz]
    have e5 : PS.chainAt { w := { ((s.put u v).marks μ).w with regs := R }, chs := ((s.put u v).marks μ).chs } d.addr =
        .ok l.owner := by
      rw [← e4]
      exact PS.marks_chainAt ((s.put u v).setRegs R) μ _
    rw [e5, Outcome.ok_bind]
    have e7 : PS.loc { w := { ((s.put u v).marks μ).w with regs := R }, chs := ((s.put u v).marks μ).chs } l.owner =
        .ok (CS.marked ⟨((s.put u v).setRegs R).w, d⟩ false false) := by
      have : (((s.put u v).setRegs R).marks μ).chs[l.owner]? = some (d.marked false false) := by
        rw [PS.marks_get, hc3, hlo]; rfl
      exact PS.loc_eq this
    rw [e7, Outcome.ok_bind]
    have hts' : (CS.marked ⟨((s.put u v).setRegs R).w, d⟩ false false).c.threadSafe = true := rfl
    rw [if_pos (Or.inl hts')]
    cases chainFree (lightSource C) C (CS.marked ⟨((s.put u v).setRegs R).w, d⟩ false false) l.ptr <;> rfl
  refine ⟨((s.put u v).setRegs R).put l.owner x, d, x.c, hc0, I3, PS.put_get x (List.getElem?_eq_some_iff.1 hc3).1, ?_, hcnt2,
    keep.2, ?_, ?_, ?_, HugeAt ⟨((s.put u v).setRegs R).w, d⟩ l.ptr, ?_, ?_⟩
  · rw [keep.1]
  · intro i h1 h2
    unfold PS.put PS.setRegs
    simp only
    rw [List.getElem?_set_ne (Ne.symm h2), List.getElem?_set_ne (Ne.symm h1)]
  · intro m hm hne' y hy
    rw [k3 m hm hne' y hy]
    exact k1 m hm trivial y hy
  · rw [PS.put_len]
    show (s.put u v).chs.length = _
    rw [PS.put_len]
  · intro hpl z hsz
    obtain ⟨H, L, P, B, K⟩ := I2
    obtain ⟨g, kk, hg, hku, _, hp, _, hst⟩ := K.live l hl2
    obtain ⟨b1, b2⟩ := B.usable hg hku
    have b2 := b2 d hc3
    rw [hp] at b1 b2
    rw [b2]
    have b1' : posixGetSize (s.put u v).w.mem l.ptr = .ok (kk.addr + kk.size - l.ptr) := b1
    rw [hz, hsz] at b1'
    have hz' := Outcome.ok.inj b1'
    have hoff : kk.uptr = kk.addr + 16 := by unfold Ck.uptr Ck.off; rw [hst hpl]
    obtain ⟨cc, hcc, T⟩ := B.getH hg
    have hroom := T.ch.room kk hku
    have : z + 16 = kk.size := by omega
    rw [this]
  · have hcc : (CS.mk ((s.put u v).setRegs R).w d).c.cnt = d.cnt := rfl
    by_cases hH : HugeAt ⟨((s.put u v).setRegs R).w, d⟩ l.ptr
    · right
      refine ⟨fun _ => hH, ?_⟩
      rw [hex, (chainFree_marked q).2 hH, e6, Outcome.ok_bind, Outcome.pure_eq, Outcome.ok_bind, Outcome.pure_eq,
        PS.marks_put_marked]
      have : decide (x.c.cnt ≠ (CS.mk ((s.put u v).setRegs R).w d).c.cnt ∧ x.c.cnt = 0) = decide (x.c.cnt = 0) := by
        rw [hcc]
        exact decide_eq_decide.2 ⟨fun h => h.2, fun h => ⟨by omega, h⟩⟩
      rw [this]
    · by_cases h0 : x.c.cnt = 0
      · left
        refine ⟨h0, hH, ?_⟩
        rw [hex, (chainFree_marked q).1 hH, e6, Outcome.ok_bind, if_pos ⟨by rw [hcc]; omega, h0⟩]; rfl
      · right
        refine ⟨fun h => absurd h h0, ?_⟩
        rw [hex, (chainFree_marked q).1 hH, e6, Outcome.ok_bind, if_neg (by simp [h0]), Outcome.pure_eq, Outcome.ok_bind,
          Outcome.pure_eq, PS.marks_put_marked, decide_eq_false h0]

end MpcAlloc
