import Verif.EndsMarks

/-
Steps of a process in which threads end: invariant, and what each call does.
-/

namespace MpcAlloc.Ends

variable {Ω : Env}

/-- `sM` is the process `s` with marks on the chains of the threads `E`. -/
structure Mks (cl : Prop) (E : List Nat) (μ : Marks) (sM s : PS) (G : PSpec) : Prop where
  inv_ex : ∃ Ω : Env, Ω.blocs = [] ∧ PInv Ω cl s G
  eq : sM = s.marks μ
  dom : ∀ t, t ∈ E ↔ ∃ k, μ t = some k
  bound : ∀ t ∈ E, t < s.chs.length
  head : ∀ t ∈ E, ∀ c, s.chs[t]? = some c → c.rfqHead = 0
  pend : ∀ l ∈ G.pend, l.owner ∉ E
  gone : ∀ t c, μ t = some true → s.chs[t]? = some c → c.cnt = 0

variable {cl : Prop} {E : List Nat} {μ : Marks} {sM s : PS} {G : PSpec}

theorem Mks.env (M : Mks cl E μ sM s G) : ∃ Ω : Env, PInv Ω cl s G := by
  obtain ⟨Ω, _, I⟩ := M.inv_ex; exact ⟨Ω, I⟩

theorem Mks.out (M : Mks cl E μ sM s G) {t : Nat} (h : t ∉ E) : μ t = none := by
  cases e : μ t with
  | none => rfl
  | some k => exact absurd ((M.dom t).2 ⟨k, e⟩) h

theorem Mks.world (M : Mks cl E μ sM s G) : sM.w = s.w := by rw [M.eq]; rfl

theorem Mks.len (M : Mks cl E μ sM s G) : sM.chs.length = s.chs.length := by rw [M.eq]; exact PS.marks_len _ _

theorem Mks.live_ended (M : Mks cl E μ sM s G) {l : PBlock} (hl : l ∈ G.live) (ho : l.owner ∈ E) : μ l.owner = some false := by
  obtain ⟨k, hk⟩ := (M.dom _).1 ho
  obtain ⟨Ω, I⟩ := M.env
  have hc := List.getElem?_eq_getElem (M.bound _ ho)
  have := (I.chain hc).2.2.2 l hl rfl
  cases k with
  | false => exact hk
  | true => have := M.gone _ _ hk hc; omega

theorem Mks.valid (M : Mks cl E μ sM s G) {op : POp} (h : PValid sM G op) : PValid s G op := by
  have h1 := M.len
  have h2 := M.world
  cases op <;> unfold PValid at h ⊢ <;> simp only at h ⊢ <;> (try rw [h1] at h) <;> (try rw [h2] at h) <;> exact h

theorem Mks.mem (M : Mks cl E μ sM s G) {op : POp} : OpMem sM op ↔ OpMem s op := by
  have h2 := M.world
  cases op <;> unfold OpMem <;> simp only <;> unfold HasMem <;> rw [h2]

/-- The chain of a thread that has ended, seen from outside. -/
theorem Mks.chain (M : Mks cl E μ sM s G) {t : Nat} (ht : t ∈ E) :
    ∃ c k, s.chs[t]? = some c ∧ μ t = some k ∧ sM.chs[t]? = some (c.marked k false) ∧
      (c.marked k false).calls = (if k then 1 else 0) := by
  obtain ⟨k, hk⟩ := (M.dom _).1 ht
  obtain ⟨c, hc⟩ : ∃ c, s.chs[t]? = some c := ⟨_, List.getElem?_eq_getElem (M.bound _ ht)⟩
  refine ⟨c, k, hc, hk, ?_, ?_⟩
  · rw [M.eq, PS.marks_get, hc, hk]; rfl
  · obtain ⟨Ω, I⟩ := M.env
    have := (I.chain hc).2.1
    unfold Chain.marked; simp only; rw [this, Nat.zero_add]

theorem heir_some {p o : Nat} (h : heir G E p = some o) : ∃ l ∈ G.live, l.ptr = p ∧ l.owner = o ∧ o ∈ E := by
  unfold heir at h
  cases e : G.live.find? (fun l => decide (l.ptr = p ∧ l.owner ∈ E)) with
  | none => rw [e] at h; cases h
  | some l =>
    rw [e] at h
    have hl := List.mem_of_find?_eq_some e
    have hp := List.find?_some e
    simp only [decide_eq_true_eq] at hp
    have : l.owner = o := Option.some.inj h
    exact ⟨l, hl, hp.1, this, this ▸ hp.2⟩

theorem heir_none {p : Nat} (h : heir G E p = none) : ∀ l ∈ G.live, l.ptr = p → l.owner ∉ E := by
  intro l hl hp ho
  unfold heir at h
  rw [Option.map_eq_none_iff, List.find?_eq_none] at h
  exact h l hl (by simp [hp, ho])

theorem drainAll_self (h : ∀ l ∈ G.pend, l.owner ∉ E) : drainAll G E = G := by
  unfold drainAll
  have : G.pend.filter (fun l => decide (l.owner ∉ E)) = G.pend := by
    rw [List.filter_eq_self]; intro l hl; exact decide_eq_true (h l hl)
  rw [this]

/-- The call works on a block of a thread that has ended. -/
def Touches (G : PSpec) (E : List Nat) (op : POp) (l : PBlock) : Prop :=
  l ∈ G.live ∧ l.owner ∈ E ∧ ((∃ u, op = .free u l.ptr) ∨ ∃ u h n, op = .realloc u l.ptr h n)

theorem asOwner_self {op : POp} (h : ∀ l, ¬ Touches G E op l) : asOwner G E op = op := by
  cases op with
  | realloc u p b n =>
    unfold asOwner
    simp only
    split
    · rfl
    · cases e : heir G E p with
      | none => rfl
      | some o =>
        obtain ⟨l, hl, hp, ho, hE⟩ := heir_some e
        subst hp; subst ho
        exact absurd ⟨hl, hE, Or.inr ⟨_, _, _, rfl⟩⟩ (h l)
  | _ => rfl

theorem afterExit_of {op : POp} {t : Nat} (ht : t ∈ E) (hth : ∀ u, op.thread = some u → u ∉ E) (h : ∀ l, ¬ Touches G E op l) :
    AfterExit t G op ∧ ¬ FreeOf t G op := by
  have key : ∀ u, op.thread = some u → u ≠ t := fun u hu e => hth u hu (e ▸ ht)
  refine ⟨?_, ?_⟩
  · cases op with
    | spawn _ _ _ => trivial
    | write _ _ => trivial
    | malloc u _ _ => exact key u rfl
    | memalign u _ _ => exact key u rfl
    | calloc u _ _ _ => exact key u rfl
    | free u _ => exact key u rfl
    | realloc u p b n =>
      refine ⟨key u rfl, fun l hl hp ho => ?_⟩
      subst hp
      exact h l ⟨hl, ho ▸ ht, Or.inr ⟨_, _, _, rfl⟩⟩
  · rintro ⟨u, l, hl, rfl, ho⟩
    exact h l ⟨hl, ho ▸ ht, Or.inl ⟨_, rfl⟩⟩

/-- The calls that do not touch the marked chains. -/
theorem marks_pexec {C : Config} {op : POp} (I : PInv Ω cl s G) (hs : μ s.chs.length = none)
    (hth : ∀ u, op.thread = some u → μ u = none) (hlv : ∀ l, Touches G E op l → False)
    (hE : ∀ t, t ∉ E → μ t = none) (hv : PValid s G op) (hcl : cl → CleanOp op) :
    pexec C (s.marks μ) op = marksR μ (pexec C s op) := by
  cases op with
  | spawn a z pb =>
    unfold pexec; simp only
    rw [marks_spawn s μ a z pb hs]
    cases posixSpawn s a z pb <;> rfl
  | malloc u h n => exact marks_memalign C s μ h n (hth u rfl)
  | memalign u b n => exact marks_memalign C s μ b n (hth u rfl)
  | calloc u h n k => exact marks_calloc C s μ h n k (hth u rfl)
  | free u p =>
    unfold pexec; simp only
    rw [marks_free I hv.1 (hth u rfl)]
    · cases posixFree C s u p <;> rfl
    · rcases hv.2 with h | ⟨l, hl, h⟩
      · exact Or.inl h
      · subst h
        exact Or.inr ⟨l, hl, rfl, hE _ (fun ho => hlv l ⟨hl, ho, Or.inl ⟨_, rfl⟩⟩)⟩
  | realloc u p h n =>
    obtain ⟨h1, h2, h3, h4⟩ := hv
    unfold pexec; simp only
    by_cases hp : p = 0
    · unfold posixRealloc
      rw [if_pos hp, if_pos hp]
      exact marks_memalign C s μ h n (hth u rfl)
    · obtain ⟨l, hl, hlp, hs⟩ := h4.resolve_left hp
      subst hlp
      have hlo := hE _ (fun ho => hlv l ⟨hl, ho, Or.inr ⟨_, _, _, rfl⟩⟩)
      by_cases hn : n = 0
      · unfold posixRealloc
        rw [if_neg hp, if_neg hp, if_pos hn, if_pos hn, marks_free I h1 (hth u rfl) (Or.inr ⟨l, hl, rfl, hlo⟩)]
        cases posixFree C s u l.ptr <;> rfl
      · exact marks_realloc I h1 (hth u rfl) hl hlo hn h2 h3 hcl
  | write a v => rfl

/-- The chain of `t` holds no bloc exactly if it was released. -/
def Due (μ : Marks) (s : PS) (t : Nat) : Prop := ∃ c k, s.chs[t]? = some c ∧ μ t = some k ∧ (c.cnt = 0 ↔ k = true)

/-- The chain of `t`, that has ended, holds no bloc and has not been released. -/
def Idle (μ : Marks) (s : PS) (t : Nat) : Prop := ∃ c : Chain, s.chs[t]? = some c ∧ μ t = some false ∧ c.cnt = 0

/-- Outcome of a call: `s'` is the process without marks. -/
structure Done (cl : Prop) (E : List Nat) (C : Config) (μ : Marks) (sM s : PS) (G : PSpec) (op : POp) (sM' : PS) (r : Nat) : Prop where
  run : pexec C sM op = .ok (sM', r)
  ok : POk sM G (asOwner G E op) sM' r
  next : ∃ μ' s', Mks cl E μ' sM' s' (after G E op r) ∧ (∀ t, Due μ s t → Due μ' s' t) ∧
    (∀ t, (∀ l ∈ G.live, Frees op l.ptr → l.owner ≠ t) → μ' t = μ t) ∧ ∀ t, Idle μ s t → Idle μ' s' t

/-- A call that does not touch the blocks of the threads that have ended. -/
theorem Mks.other {C : Config} {op : POp} (hf : C.reallocFactor ≠ 0) (M : Mks cl E μ sM s G)
    (hv : PValid sM G (asOwner G E op)) (hth : ∀ u, op.thread = some u → u ∉ E) (hcl : cl → CleanOp op)
    (ht : ∀ l, ¬ Touches G E op l) :
    (¬ OpMem sM op ∧ pexec C sM op = .ub) ∨ ∃ sM' r, Done cl E C μ sM s G op sM' r := by
  have ha := asOwner_self ht
  rw [ha] at hv
  have hv' := M.valid hv
  obtain ⟨Ω, hΩ, I⟩ := M.inv_ex
  have hlen : μ s.chs.length = none := M.out (fun h => by have := M.bound _ h; omega)
  have e := marks_pexec (C := C) (E := E) (μ := μ) I hlen (fun u hu => M.out (hth u hu)) (fun l hl => ht l hl)
    (fun t h => M.out h) hv' hcl
  rw [← M.eq] at e
  rcases pstep (C := C) hf I hv' hcl with ⟨h1, h2⟩ | ⟨s', r, h1, I', ok, hle⟩
  · left
    refine ⟨fun h => h1 (M.mem.1 h), ?_⟩
    rw [e, h2]; rfl
  · right
    rw [h1] at e
    unfold marksR at e
    rw [Outcome.ok_bind] at e
    have hsame : ∀ t ∈ E, s'.chs[t]? = s.chs[t]? := by
      intro t hE
      have hc := List.getElem?_eq_getElem (M.bound _ hE)
      obtain ⟨a1, a2⟩ := afterExit_of hE hth ht
      have e0 := over_pexec (C := C) (c' := s.chs[t]'(M.bound _ hE)) I hc rfl hv' hcl a1 a2
      have hs : s.over t (s.chs[t]'(M.bound _ hE)) = s := by unfold PS.over; rw [set_self hc]
      rw [hs, h1] at e0
      unfold overR at e0
      rw [Outcome.ok_bind] at e0
      have h := congrArg Prod.fst (Outcome.ok.inj e0)
      have h : s' = s'.over t (s.chs[t]'(M.bound _ hE)) := h
      rw [h, hc]; exact PS.over_get _ (by have := M.bound _ hE; omega)
    have hpend : ∀ l ∈ (G.after op r).pend, l.owner ∉ E := by
      intro l hl hE
      obtain ⟨a1, a2⟩ := afterExit_of (t := l.owner) hE hth ht
      exact after_pend (r := r) (fun m hm h => M.pend m hm (h ▸ hE)) a1 a2 l hl rfl
    have hG : after G E op r = G.after op r := by
      unfold after; rw [ha]; exact drainAll_self hpend
    have hw := M.world
    refine ⟨_, r, ⟨e, ?_, μ, s', ⟨?_, rfl, M.dom, ?_, ?_, ?_, ?_⟩, ?_, fun _ _ => rfl, ?_⟩⟩
    · rw [ha]
      have hm : sM.w.mem = s.w.mem := by rw [hw]
      constructor
      · intro a l hl l' hl' hp x hx hx'; rw [hm]; exact ok.kept a l hl l' hl' hp x hx hx'
      · exact ok.malloc
      · exact ok.memalign
      · exact ok.calloc
      · rw [hm]; exact ok.realloc
    · rw [hG]
      exact ⟨Ω.after op, by cases op <;> exact hΩ, I'⟩
    · intro t hE; have := M.bound _ hE; omega
    · intro t hE c hc; rw [hsame t hE] at hc; exact M.head t hE c hc
    · rw [hG]; exact hpend
    · intro t c hk hc
      rw [hsame t ((M.dom t).2 ⟨_, hk⟩)] at hc
      exact M.gone t c hk hc
    · rintro t ⟨c, k, h1, h2, h3⟩
      exact ⟨c, k, by rw [hsame t ((M.dom t).2 ⟨_, h2⟩)]; exact h1, h2, h3⟩
    · rintro t ⟨c, h1, h2, h3⟩
      exact ⟨c, by rw [hsame t ((M.dom t).2 ⟨_, h2⟩)]; exact h1, h2, h3⟩

/-- Resize of a block of a thread that has ended. -/
theorem Mks.resize {C : Config} {u h n : Nat} {l : PBlock} (hf : C.reallocFactor ≠ 0) (M : Mks cl E μ sM s G)
    (hv : PValid sM G (asOwner G E (.realloc u l.ptr h n))) (hu : u < sM.chs.length) (hth : u ∉ E)
    (hcl : cl → CleanSize (reqSize h n)) (hl : l ∈ G.live) (ho : l.owner ∈ E) (hn : n ≠ 0) :
    (¬ OpMem sM (.realloc u l.ptr h n) ∧ pexec C sM (.realloc u l.ptr h n) = .ub) ∨
      ∃ sM' r, Done cl E C μ sM s G (.realloc u l.ptr h n) sM' r := by
  obtain ⟨Ω, hΩ, I⟩ := M.inv_ex
  have hpz := I.ptr hl
  have hheir : heir G E l.ptr = some l.owner := by
    cases e : heir G E l.ptr with
    | none => exact absurd ho (heir_none e l hl rfl)
    | some o =>
      obtain ⟨m, hm, hp, h1, _⟩ := heir_some e
      rw [I.live_inj hm hl hp] at h1
      rw [h1]
  have ha : asOwner G E (.realloc u l.ptr h n) = .realloc l.owner l.ptr h n := by
    unfold asOwner
    simp only
    rw [if_neg hn, hheir]; rfl
  rw [ha] at hv
  have hv' := M.valid hv
  obtain ⟨h1, h2, h3, h4⟩ := hv'
  have hsafe : l.plain = true ∨ n ≤ l.len := by
    obtain ⟨m, hm, hp, h5⟩ := h4.resolve_left hpz
    rw [I.live_inj hm hl hp] at h5
    rcases h5 with h5 | h5 | h5
    · exact absurd h5 hn
    · exact absurd rfl h5
    · exact h5
  rw [M.len] at hu
  have hmu := M.live_ended hl ho
  obtain ⟨e, keep⟩ := marks_realloc_ended (C := C) hf I hu (M.out hth) hl hmu hn h2 h3 hcl hsafe
  rw [← M.eq] at e
  rcases pstep (C := C) (op := .realloc l.owner l.ptr h n) hf I (M.valid hv) hcl with ⟨g1, g2⟩ | ⟨s', r, g1, I', ok, hle⟩
  · left
    refine ⟨fun h => g1 (M.mem.1 h), ?_⟩
    have g2' : posixRealloc C h s l.owner l.ptr n = .ub := g2
    show posixRealloc C h sM u l.ptr n = .ub
    rw [e, g2']; rfl
  · right
    have g1' : posixRealloc C h s l.owner l.ptr n = .ok (s', r) := g1
    obtain ⟨c, hc, c', hc', hp1, hp2, hq, hother⟩ := keep s' r g1'
    rw [g1'] at e
    unfold marksR at e
    rw [Outcome.ok_bind] at e
    have hpend : ∀ m ∈ (G.after (.realloc l.owner l.ptr h n) r).pend, m.owner ∉ E := by
      intro m hm
      unfold PSpec.after at hm
      simp only at hm
      have hmine : G.mine l.owner l.ptr = true := by
        unfold PSpec.mine
        rw [List.any_eq_true]
        exact ⟨l, hl, by simp⟩
      rw [if_neg hpz, if_neg hn, if_pos hmine] at hm
      split at hm
      · exact M.pend m hm
      · rw [add_pend] at hm
        unfold PSpec.del at hm
        rcases List.mem_append.1 hm with hm | hm
        · rw [List.mem_filter, decide_eq_true_eq] at hm
          exact absurd (by rw [I.live_inj hm.1 hl hm.2.1]) hm.2.2
        · exact M.pend m hm
    have hG : after G E (.realloc u l.ptr h n) r = G.after (.realloc l.owner l.ptr h n) r := by
      unfold after; rw [ha]; exact drainAll_self hpend
    have hw := M.world
    have hm : sM.w.mem = s.w.mem := by rw [hw]
    refine ⟨_, r, ⟨e, ?_, μ, s', ⟨?_, rfl, M.dom, ?_, ?_, ?_, ?_⟩, ?_, fun _ _ => rfl, ?_⟩⟩
    · rw [ha]
      constructor
      · intro a l hl l' hl' hp x hx hx'; rw [hm]; exact ok.kept a l hl l' hl' hp x hx hx'
      · exact ok.malloc
      · exact ok.memalign
      · exact ok.calloc
      · rw [hm]; exact ok.realloc
    · rw [hG]; exact ⟨Ω, hΩ, I'⟩
    · intro t hE; have := M.bound _ hE; omega
    · intro t hE d hd
      by_cases ht : t = l.owner
      · subst ht
        rw [hc'] at hd
        obtain rfl := Option.some.inj hd
        rw [hq]; exact M.head _ hE _ hc
      · rw [hother t ht] at hd; exact M.head t hE d hd
    · rw [hG]; exact hpend
    · intro t d hk hd
      by_cases ht : t = l.owner
      · subst ht; rw [hmu] at hk; cases hk
      · rw [hother t ht] at hd; exact M.gone t d hk hd
    · rintro t ⟨d, k, d1, d2, d3⟩
      by_cases ht : t = l.owner
      · subst ht
        rw [hmu] at d2
        obtain rfl := Option.some.inj d2
        exact ⟨c', false, hc', hmu, ⟨fun h => by omega, fun h => by cases h⟩⟩
      · exact ⟨d, k, by rw [hother t ht]; exact d1, d2, d3⟩
    · rintro t ⟨d, d1, d2, d3⟩
      have ht : t ≠ l.owner := fun ht => by
        subst ht
        have := (I.chain d1).2.2.2 l hl rfl
        omega
      exact ⟨d, by rw [hother t ht]; exact d1, d2, d3⟩

/-- The call runs as a free of the block. -/
theorem frees_exec {C : Config} {op : POp} {p : Nat} (h : Frees op p) (hp : p ≠ 0) (s : PS) :
    ∃ u, op.thread = some u ∧ pexec C s op = (do let s' ← posixFree C s u p; return (s', 0)) := by
  rcases h with ⟨u, rfl⟩ | ⟨u, h, rfl⟩
  · exact ⟨u, rfl, rfl⟩
  · refine ⟨u, rfl, ?_⟩
    show posixRealloc C h s u p 0 = _
    unfold posixRealloc
    rw [if_neg hp, if_pos rfl]

theorem frees_asOwner {op : POp} {p : Nat} (h : Frees op p) : asOwner G E op = op := by
  rcases h with ⟨u, rfl⟩ | ⟨u, h, rfl⟩
  · rfl
  · unfold asOwner; simp

theorem frees_after {op : POp} {p r u : Nat} (h : Frees op p) (hp : p ≠ 0) (hu : op.thread = some u) :
    G.after op r = (G.drain u).del u p := by
  rcases h with ⟨v, rfl⟩ | ⟨v, h, rfl⟩
  · obtain rfl : v = u := Option.some.inj hu
    rfl
  · obtain rfl : v = u := Option.some.inj hu
    unfold PSpec.after
    simp only
    rw [if_neg hp, if_pos trivial]

/-- Free of a block of a thread that has ended. -/
theorem Mks.freed {C : Config} {op : POp} {l : PBlock} (M : Mks cl E μ sM s G) (hF : Frees op l.ptr)
    (hth : ∀ u, op.thread = some u → u < sM.chs.length ∧ u ∉ E) (hl : l ∈ G.live) (ho : l.owner ∈ E) :
    ∃ hg : Prop, (l.plain = true → ∀ z, posixGetSize sM.w.mem l.ptr = .ok z → (hg ↔ calcChunkSize (z + 16) > 1048576)) ∧
    ∃ n : Int, ((∃ m ∈ (after G E op 0).live, m.owner = l.owner) → n ≠ 0) ∧
      (cl → (∀ m ∈ (after G E op 0).live, m.owner ≠ l.owner) → n = 0) ∧
    ((n = 0 ∧ ¬ hg ∧ pexec C sM op = .ub) ∨ ((n = 0 → hg) ∧ ∃ sM', Done cl E C μ sM s G op sM' 0 ∧
      ∃ c, sM'.chs[l.owner]? = some c ∧ c.cnt = n ∧ c.calls = if n = 0 then 1 else 0)) := by
  obtain ⟨Ω, hΩ, I⟩ := M.inv_ex
  have hpz := I.ptr hl
  obtain ⟨u, hu, he⟩ := frees_exec (C := C) hF hpz sM
  obtain ⟨hu1, hu2⟩ := hth u hu
  rw [M.len] at hu1
  have hmu := M.live_ended hl ho
  have hw := M.world
  have hm : sM.w.mem = s.w.mem := by rw [hw]
  obtain ⟨s', c, c', hc, I', hc', hq, hp1, hle, hother, hk, hlen, hg, hg1, hr⟩ :=
    marks_free_ended (C := C) I hu1 (M.out hu2) hl hmu
  have hA := frees_after (G := G) (r := 0) hF hpz hu
  have hG : after G E op 0 = (G.drain u).del l.owner l.ptr := by
    unfold after
    rw [frees_asOwner hF, hA]
    unfold drainAll PSpec.del PSpec.drain
    simp only
    congr 1
    rw [List.filter_append]
    have h1 : (G.live.filter (fun m => decide (m.ptr = l.ptr ∧ m.owner ≠ u))).filter
        (fun m => decide (m.owner ∉ E)) = [] := by
      rw [List.filter_eq_nil_iff]
      intro m hm
      rw [List.mem_filter, decide_eq_true_eq] at hm
      have := I.live_inj hm.1 hl hm.2.1
      rw [this]; simpa using ho
    have h2 : G.live.filter (fun m => decide (m.ptr = l.ptr ∧ m.owner ≠ l.owner)) = [] := by
      rw [List.filter_eq_nil_iff]
      intro m hm hh
      rw [decide_eq_true_eq] at hh
      have := I.live_inj hm hl hh.1
      exact hh.2 (by rw [this])
    rw [h1, h2, List.nil_append, List.nil_append, List.filter_eq_self]
    intro m hm
    exact decide_eq_true (M.pend m (List.mem_of_mem_filter hm))
  have hpend : ∀ m ∈ (after G E op 0).pend, m.owner ∉ E := by
    intro m hm
    unfold after drainAll at hm
    simp only at hm
    rw [List.mem_filter, decide_eq_true_eq] at hm
    exact hm.2
  have hch := I'.chain hc'
  refine ⟨hg, ?_, c'.cnt, ?_, ?_, ?_⟩
  · rw [hm]; exact hg1
  · rintro ⟨m, hm, hmo⟩
    rw [hG] at hm
    have := hch.2.2.2 m hm hmo
    omega
  · intro hcl hno
    have Ht := I'
    refine PInv.chain_empty (Ω := Ω) (s := s') (G := (G.drain u).del l.owner l.ptr) (t := l.owner) ?_ hc' ?_
    · obtain ⟨H, L, P, B, K⟩ := I'
      exact ⟨H, L, P, B, ⟨K.live, K.pend, K.nodup, fun _ => K.clean hcl⟩⟩
    · intro m hm hmo
      rw [← hG] at hm
      rcases List.mem_append.1 hm with hm | hm
      · exact hno m hm hmo
      · exact hpend m hm (hmo ▸ ho)
  rcases hr with ⟨h0, hng, e⟩ | ⟨hh, e⟩
  · left
    refine ⟨h0, hng, ?_⟩
    rw [he, M.eq, e]; rfl
  · right
    refine ⟨hh, s'.marks (setMark μ l.owner (decide (c'.cnt = 0))), ⟨?_, ?_, setMark μ l.owner (decide (c'.cnt = 0)), s',
      ⟨?_, rfl, ?_, ?_, ?_, hpend, ?_⟩, ?_, ?_, ?_⟩, c'.marked (decide (c'.cnt = 0)) false, ?_, rfl, ?_⟩
    · rw [he, M.eq, e]; rfl
    · rw [frees_asOwner hF]
      constructor
      · intro _ m hml m' hm' hp x hx _
        rw [hm]
        refine hk m hml (fun hmp => ?_) x hx
        rw [hA] at hm'
        exact (del_live.1 hm').2 (by rw [hp, hmp])
      · rintro t b n rfl; rcases hF with ⟨_, h⟩ | ⟨_, _, h⟩ <;> cases h
      · rintro t b n rfl; rcases hF with ⟨_, h⟩ | ⟨_, _, h⟩ <;> cases h
      · rintro t b n k rfl; rcases hF with ⟨_, h⟩ | ⟨_, _, h⟩ <;> cases h
      · rintro t p b n rfl hx
        rcases hF with ⟨_, h⟩ | ⟨_, _, h⟩
        · cases h
        · cases h
          rcases hx with hx | hx
          · exact absurd rfl hx
          · exact absurd hx hpz
    · rw [hG]; exact ⟨Ω, hΩ, I'⟩
    · intro t
      unfold setMark
      split
      · rename_i ht; subst ht; exact ⟨fun _ => ⟨_, rfl⟩, fun _ => ho⟩
      · exact M.dom t
    · intro t hE; have := M.bound _ hE; omega
    · intro t hE d hd
      by_cases ht : t = l.owner
      · subst ht
        rw [hc'] at hd
        obtain rfl := Option.some.inj hd
        rw [hq]; exact M.head _ hE _ hc
      · rw [hother t (fun h => hu2 (h ▸ hE)) ht] at hd; exact M.head t hE d hd
    · intro t d hkk hd
      by_cases ht : t = l.owner
      · subst ht
        rw [hc'] at hd
        obtain rfl := Option.some.inj hd
        unfold setMark at hkk
        rw [if_pos rfl] at hkk
        exact of_decide_eq_true (Option.some.inj hkk)
      · unfold setMark at hkk
        rw [if_neg ht] at hkk
        have hE := (M.dom t).2 ⟨_, hkk⟩
        rw [hother t (fun h => hu2 (h ▸ hE)) ht] at hd; exact M.gone t d hkk hd
    · rintro t ⟨d, k, d1, d2, d3⟩
      by_cases ht : t = l.owner
      · subst ht
        refine ⟨c', decide (c'.cnt = 0), hc', ?_, by rw [decide_eq_true_eq]⟩
        unfold setMark; rw [if_pos rfl]
      · have hE := (M.dom t).2 ⟨_, d2⟩
        refine ⟨d, k, ?_, ?_, d3⟩
        · rw [hother t (fun h => hu2 (h ▸ hE)) ht]; exact d1
        · unfold setMark; rw [if_neg ht]; exact d2
    · intro t ht
      unfold setMark; rw [if_neg (fun h => ht l hl hF h.symm)]
    · rintro t ⟨d, d1, d2, d3⟩
      have ht : t ≠ l.owner := fun ht => by
        subst ht
        have := (I.chain d1).2.2.2 l hl rfl
        omega
      have hE := (M.dom t).2 ⟨_, d2⟩
      refine ⟨d, ?_, ?_, d3⟩
      · rw [hother t (fun h => hu2 (h ▸ hE)) ht]; exact d1
      · unfold setMark; rw [if_neg ht]; exact d2
    · rw [PS.marks_get, hc']
      unfold setMark; rw [if_pos rfl]; rfl
    · have := hch.2.1
      unfold Chain.marked
      simp only
      rw [this, Nat.zero_add]
      by_cases h0 : c'.cnt = 0 <;> simp [h0]

/-- End of a thread. -/
theorem Mks.exit {C : Config} {t : Nat} {sM1 : PS} (M : Mks cl E μ sM s G) (ht : t < sM.chs.length) (hE : t ∉ E)
    (e : posixExit C sM t = .ok sM1) :
    ∃ μ' s', Mks cl (t :: E) μ' sM1 s' (G.drain t) ∧ (∀ i, Due μ s i → Due μ' s' i) ∧
      ((∃ l ∈ G.live, l.owner = t) → Due μ' s' t ∧ μ' t = some false) ∧ (∀ i, Idle μ s i → Idle μ' s' i) ∧
      ((∀ c, s.chs[t]? = some c → c.rfqHead = 0 ∧ c.cnt = 0) → Idle μ' s' t) ∧
      ∀ l ∈ G.live, ∀ x, l.Byte x → sM1.w.mem x = sM.w.mem x := by
  obtain ⟨Ω, hΩ, I⟩ := M.inv_ex
  rw [M.len] at ht
  obtain ⟨c, hc⟩ : ∃ c, s.chs[t]? = some c := ⟨_, List.getElem?_eq_getElem ht⟩
  have hmu := M.out hE
  obtain ⟨q, hcalls, hcnt, hcl⟩ := I.chain hc
  have hm : ({ (CS.mk s.w c) with c := { c with threadSafe := true, handler := true } } : CS Light) =
      CS.marked ⟨s.w, c⟩ false false := by
    have h1 := q.dead
    have h2 := q.lock
    simp only at h1 h2
    unfold CS.marked Chain.marked
    simp [h1, h2]
  unfold posixExit at e
  rw [M.eq, PS.marks_loc hmu, PS.loc_eq hc, Outcome.ok_bind] at e
  obtain ⟨uM, e1, e⟩ := Outcome.bind_eq_ok e
  unfold markForDestroy at e1
  rw [hm] at e1
  obtain ⟨v, k, e2, rfl, h1, h2, h3⟩ := purgeRfq_unmark q e1
  obtain ⟨v', e3, I', keep, _⟩ := purge_eff (C := C) I hc
  obtain rfl : v' = v := Outcome.ok.inj (e3.symm.trans e2)
  rw [PS.marks_put_marked] at e
  cases e
  have hc' : (s.put t v').chs[t]? = some v'.c := PS.put_get v' ht
  have hother : ∀ i, i ≠ t → (s.put t v').chs[i]? = s.chs[i]? := by
    intro i hi
    unfold PS.put
    simp only
    rw [List.getElem?_set_ne (Ne.symm hi)]
  have hset : ∀ i, i ≠ t → setMark μ t k i = μ i := fun i hi => by unfold setMark; rw [if_neg hi]
  have hself : setMark μ t k t = some k := by unfold setMark; rw [if_pos rfl]
  refine ⟨setMark μ t k, s.put t v', ⟨⟨Ω, hΩ, I'⟩, rfl, ?_, ?_, ?_, ?_, ?_⟩, ?_, ?_, ?_, ?_, ?_⟩
  · intro i
    rw [List.mem_cons]
    by_cases hi : i = t
    · subst hi; rw [hself]; exact ⟨fun _ => ⟨_, rfl⟩, fun _ => Or.inl rfl⟩
    · rw [hset i hi, ← M.dom i]
      exact ⟨fun h => h.resolve_left hi, Or.inr⟩
  · intro i hi
    rw [PS.put_len]
    rcases List.mem_cons.1 hi with rfl | hi
    · exact ht
    · exact M.bound i hi
  · intro i hi d hd
    by_cases hit : i = t
    · subst hit
      rw [hc'] at hd
      obtain rfl := Option.some.inj hd
      exact h1
    · rw [hother i hit] at hd
      exact M.head i ((List.mem_cons.1 hi).resolve_left hit) d hd
  · intro l hl hlE
    unfold PSpec.drain at hl
    rw [List.mem_filter, decide_eq_true_eq] at hl
    rcases List.mem_cons.1 hlE with h | h
    · exact hl.2 h
    · exact M.pend l hl.1 h
  · intro i d hk hd
    by_cases hit : i = t
    · subst hit
      rw [hself] at hk
      rw [hc'] at hd
      obtain rfl := Option.some.inj hd
      exact h2 (Option.some.inj hk)
    · rw [hset i hit] at hk
      rw [hother i hit] at hd
      exact M.gone i d hk hd
  · rintro i ⟨d, k', d1, d2, d3⟩
    have hit : i ≠ t := fun h => by rw [h, hmu] at d2; cases d2
    exact ⟨d, k', by rw [hother i hit]; exact d1, by rw [hset i hit]; exact d2, d3⟩
  · rintro ⟨l, hl, hlo⟩
    have hpos := (I'.chain hc').2.2.2 l hl hlo
    have hk : k = false := by
      cases k with
      | false => rfl
      | true => have := h2 rfl; omega
    subst hk
    exact ⟨⟨v'.c, false, hc', hself, ⟨fun h => by omega, fun h => by cases h⟩⟩, hself⟩
  · rintro i ⟨d, d1, d2, d3⟩
    have hit : i ≠ t := fun h => by rw [h, hmu] at d2; cases d2
    exact ⟨d, by rw [hother i hit]; exact d1, by rw [hset i hit]; exact d2, d3⟩
  · intro h
    obtain ⟨g1, g2⟩ := h c hc
    have hp : purgeRfq (lightSource C) C (CS.marked ⟨s.w, c⟩ false false) = .ok (CS.marked ⟨s.w, c⟩ false false) := by
      unfold purgeRfq
      rw [if_neg (by simp [CS.marked, Chain.marked]), if_pos (by exact g1)]
    rw [hp] at e1
    have h1 := Outcome.ok.inj e1
    have hk : k = false := (congrArg (fun u : CS Light => u.c.dead) h1).symm
    have hcnt : c.cnt = v'.c.cnt := congrArg (fun u : CS Light => u.c.cnt) h1
    exact ⟨v'.c, hc', by rw [hself, hk], by rw [← hcnt]; exact g2⟩
  · intro l hl x hx
    rw [M.eq]
    exact keep l hl trivial x hx

/-- A thread that has a live block can end. -/
theorem Mks.exit_ok {C : Config} {t : Nat} (M : Mks cl E μ sM s G) (hE : t ∉ E)
    (hl : ∃ l ∈ G.live, l.owner = t) : ∃ sM1, posixExit C sM t = .ok sM1 := by
  obtain ⟨Ω, hΩ, I⟩ := M.inv_ex
  obtain ⟨l, hl, ho⟩ := hl
  have ht : t < s.chs.length := by
    have := (I.disj.2 l (List.mem_append_left _ hl)).2.1
    omega
  obtain ⟨c, hc⟩ : ∃ c, s.chs[t]? = some c := ⟨_, List.getElem?_eq_getElem ht⟩
  obtain ⟨v, e1, I1, _⟩ := purge_eff (C := C) I hc
  have hc1 := PS.put_get v ht
  have hpos := (I1.chain hc1).2.2.2 l hl ho
  obtain ⟨s1, e⟩ := MpcAlloc.exit_ok I hc e1 (Or.inl hpos)
  unfold posixExit at e ⊢
  rw [M.eq, PS.marks_loc (M.out hE)]
  obtain ⟨w, e2, e⟩ := Outcome.bind_eq_ok e
  obtain ⟨z, e3, e⟩ := Outcome.bind_eq_ok e
  rw [e2, Outcome.ok_bind, e3, Outcome.ok_bind]
  exact ⟨_, rfl⟩

/-- End of a thread without waiting block. -/
theorem Mks.exit_idle {C : Config} {t : Nat} (M : Mks cl E μ sM s G) (hE : t ∉ E) {c : Chain} (hc : s.chs[t]? = some c)
    (hq : c.rfqHead = 0) : ∃ sM1, posixExit C sM t = .ok sM1 := by
  obtain ⟨Ω, hΩ, I⟩ := M.inv_ex
  obtain ⟨v, e1, I1, _⟩ := purge_eff (C := C) I hc
  obtain ⟨s1, e⟩ := MpcAlloc.exit_ok I hc e1 (Or.inr hq)
  unfold posixExit at e ⊢
  rw [M.eq, PS.marks_loc (M.out hE)]
  obtain ⟨w, e2, e⟩ := Outcome.bind_eq_ok e
  obtain ⟨z, e3, e⟩ := Outcome.bind_eq_ok e
  rw [e2, Outcome.ok_bind, e3, Outcome.ok_bind]
  exact ⟨_, rfl⟩

theorem Mks.start {a : State} (h : Start a) : Mks cl a.E (fun _ => none) a.s a.s a.G := by
  obtain ⟨m, R, o, h1, h2, h3, rfl⟩ := h
  refine ⟨⟨_, rfl, PInv.start h1 h2 h3⟩, ?_, ?_, ?_, ?_, ?_, ?_⟩
  · rfl
  · intro t; simp
  · intro t h; cases h
  · intro t h; cases h
  · intro l h; cases h
  · intro t c h; cases h

/-- The three kinds of calls. -/
theorem call_cases (G : PSpec) (E : List Nat) (op : POp) :
    (∀ l, ¬ Touches G E op l) ∨ (∃ l ∈ G.live, l.owner ∈ E ∧ Frees op l.ptr) ∨
      ∃ l ∈ G.live, l.owner ∈ E ∧ ∃ u h n, op = .realloc u l.ptr h n ∧ n ≠ 0 := by
  by_cases h : ∃ l, Touches G E op l
  · obtain ⟨l, hl, ho, ⟨u, rfl⟩ | ⟨u, h, n, rfl⟩⟩ := h
    · exact Or.inr (Or.inl ⟨l, hl, ho, Or.inl ⟨u, rfl⟩⟩)
    · by_cases hn : n = 0
      · subst hn; exact Or.inr (Or.inl ⟨l, hl, ho, Or.inr ⟨u, h, rfl⟩⟩)
      · exact Or.inr (Or.inr ⟨l, hl, ho, u, h, n, rfl, hn⟩)
  · exact Or.inl (fun l hl => h ⟨l, hl⟩)

/-- Every call that succeeds keeps the invariant. -/
theorem Mks.call {C : Config} {op : POp} {sM' : PS} {r : Nat} (hf : C.reallocFactor ≠ 0) (M : Mks cl E μ sM s G)
    (hv : Valid ⟨sM, G, E⟩ op) (hcl : cl → CleanOp op) (e : pexec C sM op = .ok (sM', r)) : Done cl E C μ sM s G op sM' r := by
  obtain ⟨hv, hth⟩ := hv
  have fin : ∀ {sM2 r2}, Done cl E C μ sM s G op sM2 r2 → Done cl E C μ sM s G op sM' r := by
    intro sM2 r2 d
    have h := d.run
    rw [e] at h
    obtain ⟨rfl, rfl⟩ := Prod.mk.inj (Outcome.ok.inj h)
    exact d
  rcases call_cases G E op with ht | ⟨l, hl, ho, hF⟩ | ⟨l, hl, ho, u, h, n, rfl, hn⟩
  · rcases M.other hf hv (fun u hu => (hth u hu).2) hcl ht with ⟨_, e'⟩ | ⟨_, _, d⟩
    · rw [e'] at e; cases e
    · exact fin d
  · obtain ⟨hg, _, n, _, _, ⟨_, _, e'⟩ | ⟨_, _, d, _⟩⟩ := M.freed (C := C) hF hth hl ho
    · rw [e'] at e; cases e
    · exact fin d
  · rcases M.resize hf hv (hth u rfl).1 (hth u rfl).2 hcl hl ho hn with ⟨_, e'⟩ | ⟨_, _, d⟩
    · rw [e'] at e; cases e
    · exact fin d

theorem Steps.mks {C : Config} {X : POp → Prop} {a b : State} (hf : C.reallocFactor ≠ 0) (hX : cl → ∀ op, X op → CleanOp op)
    (h : Steps C X a b) (M : Mks cl a.E μ a.s s a.G) :
    ∃ μ' s', Mks cl b.E μ' b.s s' b.G ∧ (∀ t, Due μ s t → Due μ' s' t) ∧ ∀ t, Idle μ s t → Idle μ' s' t := by
  induction h with
  | refl => exact ⟨μ, s, M, fun _ h => h, fun _ h => h⟩
  | @tail b c _ st ih =>
    obtain ⟨μ1, s1, M1, d1, f1⟩ := ih
    cases st with
    | call hv hx e =>
      obtain ⟨_, _, μ2, s2, M2, d2, _, f2⟩ := M1.call hf hv (fun z => hX z _ hx) e
      exact ⟨μ2, s2, M2, fun t h => d2 t (d1 t h), fun t h => f2 t (f1 t h)⟩
    | exit ht hE e =>
      obtain ⟨μ2, s2, M2, d2, _, f2, _⟩ := M1.exit ht hE e
      exact ⟨μ2, s2, M2, fun t h => d2 t (d1 t h), fun t h => f2 t (f1 t h)⟩

theorem Reach.mks {C : Config} {X : POp → Prop} {a : State} (hf : C.reallocFactor ≠ 0) (hX : cl → ∀ op, X op → CleanOp op)
    (h : Reach C X a) : ∃ μ s, Mks cl a.E μ a.s s a.G := by
  obtain ⟨a0, h0, hs⟩ := h
  obtain ⟨μ, s, M, _⟩ := hs.mks hf hX (Mks.start h0)
  exact ⟨μ, s, M⟩

end MpcAlloc.Ends
