import Verif.ConcSourceStep
import Verif.ChainInit
import Verif.PosixOps
import Verif.PropsPosixNeg

/-
Property C56: concurrent calls on the chains of `sctk_malloc_on_node`, thread safe chains with a memory source.
-/

namespace MpcAlloc
namespace OnNode

variable {C : Config} {addr pb : Nat} {X : Act → Prop} {k : KS Light}

/-! ## The invariant of the states reached -/

/-- The lock word says whether a thread has the lock. -/
structure LockInv (k : KS Light) : Prop where
  iff : k.s.c.lock = true ↔ ∃ t, holds (k.pc t) = true
  one : ∀ t v, holds (k.pc t) = true → holds (k.pc v) = true → t = v

theorem LockInv.moves {k' : KS Light} {t : Nat} (h : LockInv k) (M : Moves k k' t) : LockInv k' := by
  obtain ⟨p', hpc, hl, _⟩ := M
  have ht : k'.pc t = p' := by rw [hpc]; exact pcSet_eq _ _ _
  have hv : ∀ v, v ≠ t → k'.pc v = k.pc v := fun v hv => by rw [hpc]; exact if_neg hv
  rcases hl with ⟨h1, h2⟩ | ⟨h1, h2, h3⟩ | ⟨h1, h2, h3⟩
  · have same : ∀ v, holds (k'.pc v) = holds (k.pc v) := by
      intro v
      by_cases hvt : v = t
      · rw [hvt, ht, h2]
      · rw [hv v hvt]
    refine ⟨?_, fun v w => ?_⟩
    · rw [h1, h.iff]
      exact exists_congr (fun v => by rw [same])
    · rw [same, same]; exact h.one v w
  · have no : ∀ v, holds (k.pc v) ≠ true := fun v hh => by
      rw [h.iff.2 ⟨v, hh⟩] at h1; cases h1
    have only : ∀ v, holds (k'.pc v) = true → v = t := by
      intro v hh
      by_contra hvt
      rw [hv v hvt] at hh
      exact no v hh
    exact ⟨⟨fun _ => ⟨t, by rw [ht]; exact h3⟩, fun _ => h2⟩, fun v w a b => by rw [only v a, only w b]⟩
  · have no : ∀ v, holds (k'.pc v) ≠ true := by
      intro v hh
      by_cases hvt : v = t
      · rw [hvt, ht, h3] at hh; cases hh
      · rw [hv v hvt] at hh
        exact hvt (h.one v t hh h1)
    exact ⟨⟨fun hh => (by rw [h2] at hh; cases hh), fun ⟨v, hh⟩ => absurd hh (no v)⟩, fun v _ a => absurd a (no v)⟩

/-- The reserved areas: the structure of the chain and the beginning of the address space. -/
def areas (pb : Nat) : Res := ⟨[(pb, 1536), (0, MB2 + 1)], Env.none⟩

theorem init_inv {cl : Prop} {m : Mem} {R : Regions} {o : Os} {s : CS Light} (h1 : R.OK) (h2 : ∀ i, R.ent i = 0)
    (h3 : ∀ x, x ≤ MB2 → o.used x = true) (h4 : 0 < pb) (h5 : pb + 1536 < W64)
    (h6 : ∀ x, pb ≤ x → x < pb + 1536 → o.used x = true) (h : nodeChain ⟨m, R, Light.init o⟩ addr pb = .ok s) :
    KInv cl addr pb (areas pb) ⟨s, fun _ => .idle, [], fun _ => none⟩ s emptyHeap [] (fun _ => none) 0 ∧ s.c.lock = false := by
  obtain ⟨u, e, I, eR, eS, e1, e2, e3, e4, e5, e6, e7, e8, e9, e10, _⟩ :=
    chainBaseInit_ok ⟨m, R, Light.init o⟩ (addr := addr) (pb := pb) true false false h4 h5
  have eu : nodeChain ⟨m, R, Light.init o⟩ addr pb = .ok { u with c := { u.c with hasSrc := true } } := by
    unfold nodeChain userInit
    rw [e, Outcome.ok_bind, if_neg (by simp), Outcome.pure_eq, Outcome.ok_bind]
    rfl
  have hs : s = { u with c := { u.c with hasSrc := true } } := (Outcome.ok.inj (h.symm.trans eu))
  have hlock : s.c.lock = false := by rw [hs]; exact I.lock
  have hsrc : s.w.src = Light.init o := by rw [hs]; exact eS
  have hreg : s.w.regs = R := by rw [hs]; exact eR
  have hch : ChSt pb s.w.mem s.c emptyHeap := by
    rw [hs]
    refine ⟨emptyHeap_wf h4 h5, I.pool, I.mem, I.dead, I.lock, e6, rfl, e8, e4, by rw [show (({ u.c with hasSrc := true } : Chain).cnt) = u.c.cnt from rfl, e7]; rfl,
      ?_, ?_, ?_, ?_⟩
    · intro d hd; simp [emptyHeap, AHeap.shape] at hd
    · intro d hd; simp [emptyHeap, AHeap.shape] at hd
    · intro _ g hg; simp [emptyHeap] at hg
    · rintro c ⟨⟨g, hg, _⟩, _⟩; simp [emptyHeap] at hg
  have hinv : SInv pb s emptyHeap [] [] (areas pb) := by
    refine ⟨hch, ?_, ?_, ?_, ?_, ?_, ?_⟩
    · rw [hsrc]; exact Light.init_inv _ o
    · rw [hreg]
      refine ⟨h1, ?_, ?_, ?_, fun i hi => absurd (h2 i) hi⟩
      · intro d hd; simp [emptyHeap, AHeap.shape, areas, Env.none] at hd
      · intro d hd; simp [emptyHeap, AHeap.shape, areas, Env.none] at hd
      · intro d hd; simp [emptyHeap, AHeap.shape, areas, Env.none] at hd
    · simp [areas, Res.mem]
    · intro d hd x hx1 hx2
      rw [hsrc]
      simp only [areas, Res.mem, List.mem_cons, List.not_mem_nil, or_false] at hd
      rcases hd with rfl | rfl
      · exact h6 x hx1 hx2
      · exact h3 x (by simp only at hx2; omega)
    · intro d _ e he; simp [emptyHeap, AHeap.shape] at he
    · intro d hd; simp [areas, Env.none] at hd
  refine ⟨⟨?_, hinv, ?_, ?_, ?_, ?_, List.Pairwise.nil, ?_, ?_, ?_⟩, hlock⟩
  · show s = adj s.c.lock 0 s
    unfold adj
    rw [show s.c.cnt + 0 = s.c.cnt by omega]
  · rw [hs]; exact ⟨e2, e3, e1⟩
  · intro i c h; cases h
  · intro i j c h; cases h
  · intro l hl; cases hl
  · intro t; exact ⟨rfl, rfl⟩
  · intro p c h; cases h
  · intro _
    refine ⟨fun d hd => ?_, ?_⟩
    · simp [emptyHeap, AHeap.shape] at hd
    · rintro c ⟨⟨g, hg, _⟩, _⟩; simp [emptyHeap] at hg

theorem Reach.inv (cl : Prop) (h : Reach C addr pb X k) (hX : cl → ∀ a, X a → CleanAct a) :
    (∃ u A L H d, KInv cl addr pb (areas pb) k u A L H d) ∧ LockInv k := by
  induction h with
  | init h1 h2 h3 h4 h5 h6 e =>
    obtain ⟨I, hl⟩ := init_inv (cl := cl) h1 h2 h3 h4 h5 h6 e
    refine ⟨⟨_, _, _, _, _, I⟩, ⟨fun h => ?_, fun ⟨t, h⟩ => by cases h⟩, fun t v h => by cases h⟩
    have : _ = true := h
    rw [hl] at this; cases this
  | @step k k' t a _ hv e ih =>
    obtain ⟨⟨u, A, L, H, d, I⟩, hl⟩ := ih
    rcases I.next (C := C) (t := t) a (fun h => (hv h).1) (fun h hc => hX hc a (hv h).2) with ⟨e', _⟩ | ⟨k1, u', A', L', H', d', e', I', M, _⟩
    · rw [e'] at e; cases e
    · rw [e'] at e
      cases Outcome.ok.inj e
      exact ⟨⟨_, _, _, _, _, I'⟩, hl.moves M⟩

/-! ## Blocks -/

/-- C56. Let any number of threads allocate (with or without alignment), free and resize blocks of such a chain and store
data in them, their steps being interleaved in any order. At every moment the blocks that clients own have
no byte in common; each has its alignment, lies in mapped memory apart from the structure of the chain, and
holds the data that clients stored in it, or in the block from which a realloc moved them. Missing for the full property: the code under
the lock and the exchange of a bloc with the source are single steps; boundaries that are no powers of two, sizes that wrap around or that do
not fit (`PSize`), and the growth of aligned blocks by realloc. -/
theorem C56_blocks_partial (h : Reach C addr pb X k) :
    k.live.Pairwise Blk.Disj ∧ ∀ l ∈ k.live, l.ptr ≠ 0 ∧ (1 < l.bound → l.bound ∣ l.ptr) ∧ (l.bound ≤ 1 → 16 ∣ l.ptr) ∧
      ∀ x, l.Byte x → k.s.w.src.os.used x = true ∧ (x < pb ∨ pb + 1536 ≤ x) ∧ ∀ v, k.data x = some v → k.s.w.mem x = v := by
  obtain ⟨⟨u, A, L, H, d, I⟩, _⟩ := h.inv False False.elim
  have hW := I.inv.ch.wf
  constructor
  · refine I.dist.imp_of_mem ?_
    intro l l' hl hl' hne
    obtain ⟨c, h1, h2, _⟩ := I.live l hl
    obtain ⟨c', h1', h2', _⟩ := I.live l' hl'
    refine ⟨hne, fun x hx => ?_⟩
    have h3 := I.ptr_ne h1 h1' (fun h => hne (by injection h))
    obtain ⟨⟨g1, g2⟩, g3, g4⟩ := hx
    have := h2.ptr; have := h2.fit; have := h2'.ptr; have := h2'.fit
    have := hW.uptr_ge c; have := hW.uptr_ge c'
    omega
  · intro l hl
    obtain ⟨c, h1, h2, h3⟩ := I.live l hl
    refine ⟨I.live_nz hl, h2.align, h2.align16, fun x hx => ?_⟩
    obtain ⟨g1, g2⟩ := hx
    have b1 := h2.ptr
    have b2 := h2.fit
    have b3 := hW.uptr_ge c
    obtain ⟨g, hg, hcg⟩ := (I.used _ _ h1).1
    have hbd := (hW.seg g hg).bounds hcg
    have hsm : (g.base, g.size) ∈ A.shape := mem_shape.2 ⟨g, hg, rfl⟩
    have hmem : (g.base, g.size) ∈ (A.shape ++ []) ++ L := by simp [hsm]
    have hin : g.base ≤ x ∧ x < g.base + g.size := by omega
    rw [I.mem]
    refine ⟨(I.inv.lin.good _ hmem).used x hin.1 hin.2, ?_, fun v hv => h3 x v ⟨g1, g2⟩ hv⟩
    by_contra hc
    have := I.inv.resD _ I.inv.pool _ hmem x (by simp only; omega) (by simp only; omega)
    simp only at this
    omega

/-- C56: the regions find the chain of every block, so that `sctk_free` of any thread gives it back to the chain that it
came from (the pointer to the chain is at offset 16 of the header of the bloc). -/
theorem C56_lookup_partial (h : Reach C addr pb X k) {l : Blk} (hl : l ∈ k.live) :
    ∃ R b, regionGetMacroBloc k.s.w.mem k.s.w.regs l.ptr = .ok (R, b) ∧ b ≠ 0 ∧ readLE k.s.w.mem (b + 16) 8 = addr % W64 := by
  obtain ⟨⟨u, A, L, H, d, I⟩, _⟩ := h.inv False False.elim
  have hW := I.inv.ch.wf
  obtain ⟨c, h1, h2, h3⟩ := I.live l hl
  have b1 := h2.ptr
  have b3 := hW.uptr_ge c
  have b4 := I.inv.ch.room c (I.used _ _ h1)
  obtain ⟨g, hg, hcg⟩ := (I.used _ _ h1).1
  have hbd := (hW.seg g hg).bounds hcg
  have hsm : (g.base, g.size) ∈ A.shape := mem_shape.2 ⟨g, hg, rfl⟩
  have hmem : (g.base, g.size) ∈ (A.shape ++ []) ++ L := by simp [hsm]
  have hp : MB2 < l.ptr := by
    by_contra hc
    have := I.inv.resD (0, MB2 + 1) (by simp [areas, Res.mem]) _ hmem l.ptr (by simp only; omega) (by simp only; omega)
    simp only at this
    omega
  have hge := (hW.seg g hg).ge
  obtain ⟨R, e, _⟩ := I.inv.reg.lookup (p := l.ptr) (d := (g.base, g.size)) (by simp [hsm]) (by simp only; omega)
    (by simp only; omega) hp
  refine ⟨R, g.base, by rw [I.mem]; exact e, ?_, ?_⟩
  · have := (I.inv.reg.bloc (g.base, g.size) (by simp [hsm])).1
    simp only at this
    omega
  · rw [I.mem, I.inv.ch.own _ hsm, I.flags.2.2]

/-! ## Calls -/

/-- C56: no step of a thread that follows the rules fails, whatever the others do, as long as the kernel has memory. -/
theorem C56_no_failure_partial (hf : C.reallocFactor ≠ 0) (h : Reach C addr pb X k) {t : Nat} {a : Act}
    (hv : k.pc t = .idle → Valid k a) (hm : StepMem k t) : ∃ k', step (lightSource C) C k t a = .ok k' := by
  obtain ⟨⟨u, A, L, H, d, I⟩, _⟩ := h.inv False False.elim
  rcases I.next (C := C) (t := t) a hv (fun _ => False.elim) with ⟨_, h1 | h1⟩ | ⟨k', _, _, _, _, _, e, _⟩
  · exact absurd hm h1
  · exact absurd h1 hf
  · exact ⟨k', e⟩

/-- C56: at most one thread is between lock and unlock. -/
theorem C56_one_at_a_time (h : Reach C addr pb X k) {t v : Nat}
    (ht : (∃ j, k.pc t = .crit j) ∨ (∃ b n c q, k.pc t = .unlockA b n c q) ∨ ∃ r, k.pc t = .unlockF r)
    (hv : (∃ j, k.pc v = .crit j) ∨ (∃ b n c q, k.pc v = .unlockA b n c q) ∨ ∃ r, k.pc v = .unlockF r) : t = v := by
  obtain ⟨_, hl⟩ := h.inv False False.elim
  have key : ∀ w, ((∃ j, k.pc w = .crit j) ∨ (∃ b n c q, k.pc w = .unlockA b n c q) ∨ ∃ r, k.pc w = .unlockF r) →
      holds (k.pc w) = true := by
    rintro w (⟨j, e⟩ | ⟨b, n, c, q, e⟩ | ⟨r, e⟩) <;> rw [e] <;> rfl
  exact hl.one t v (key t ht) (key v hv)

theorem Steps.trans {k1 k2 k3 : KS Light} (h : Steps C X k1 k2) (h' : Steps C X k2 k3) : Steps C X k1 k3 := by
  induction h with
  | refl => exact h'
  | step hv e _ ih => exact .step hv e (ih h')

theorem Reach.steps {k' : KS Light} (h : Reach C addr pb X k) (h' : Steps C X k k') : Reach C addr pb X k' := by
  induction h' with
  | refl => exact h
  | step hv e _ ih => exact ih (h.step hv e)

/-- The thread ends its call if no other one has the lock. -/
theorem finish (hf : C.reallocFactor ≠ 0) (t : Nat) (Q : KS Light → Prop)
    (hQ : ∀ k k', Q k → k.pc t ≠ .idle → step (lightSource C) C k t (.free 0) = .ok k' → Q k') :
    ∀ (n : Nat) {k : KS Light}, Reach C addr pb X k → left (k.pc t) ≤ n → (∀ v, holds (k.pc v) = true → v = t) → Q k →
    ∃ k', Steps C X k k' ∧ (k'.pc t = .idle ∨ ¬ StepMem k' t) ∧ (∀ v, v ≠ t → k'.pc v = k.pc v) ∧ Q k' := by
  intro n
  induction n with
  | zero =>
    intro k _ hn _ q
    refine ⟨k, .refl k, Or.inl ?_, fun _ _ => rfl, q⟩
    cases hp : k.pc t with
    | idle => rfl
    | swap j => rw [hp] at hn; cases j <;> simp [left] at hn
    | load j => rw [hp] at hn; cases j <;> simp [left] at hn
    | crit j => rw [hp] at hn; cases j <;> simp [left] at hn
    | _ => rw [hp] at hn; simp [left] at hn
  | succ n ih =>
    intro k hk hn hown q
    by_cases hidle : k.pc t = .idle
    · exact ⟨k, .refl k, Or.inl hidle, fun _ _ => rfl, q⟩
    by_cases hm : StepMem k t
    swap
    · exact ⟨k, .refl k, Or.inr hm, fun _ _ => rfl, q⟩
    obtain ⟨⟨u, A, L, H, d, I⟩, hl⟩ := hk.inv False False.elim
    rcases I.next (C := C) (t := t) (.free 0) (fun h => absurd h hidle) (fun _ => False.elim) with
      ⟨_, h1 | h1⟩ | ⟨k1, _, _, _, _, _, e, _, M, _⟩
    · exact absurd hm h1
    · exact absurd h1 hf
    · obtain ⟨p', hpc, hlk, hleft⟩ := M
      have ht : k1.pc t = p' := by rw [hpc]; exact pcSet_eq _ _ _
      have hv : ∀ v, v ≠ t → k1.pc v = k.pc v := fun v hv => by rw [hpc]; exact if_neg hv
      have hlt : left p' < left (k.pc t) := by
        rcases hleft with h | ⟨h1, h2⟩ | h
        · exact absurd h hidle
        · obtain ⟨v, hv⟩ := hl.iff.1 h1
          have := hown v hv
          rw [this] at hv
          cases hp : k.pc t <;> rw [hp] at hv h2 <;> simp [holds, wants] at hv h2
        · exact h
      obtain ⟨k2, s2, h2, h3, h4⟩ := ih (hk.step (fun h => absurd h hidle) e) (by rw [ht]; omega) (by
        intro v hh
        by_contra hvt
        rw [hv v hvt] at hh
        exact hvt (hown v hh)) (hQ k k1 q hidle e)
      exact ⟨k2, .step (fun h => absurd h hidle) e s2, h2, fun v hvt => by rw [h3 v hvt, hv v hvt], h4⟩

/-- C56: no thread is stuck. Whatever state the threads have reached, there are steps of the thread that has the lock,
if there is one, then of any thread we choose, after which that thread is out of its call, unless one of the two is at a request
for which the kernel has no memory. -/
theorem C56_progress_partial (hf : C.reallocFactor ≠ 0) (h : Reach C addr pb X k) (t : Nat) :
    ∃ k', Steps C X k k' ∧ (k'.pc t = .idle ∨ ∃ v, ¬ StepMem k' v) := by
  obtain ⟨_, hl⟩ := h.inv False False.elim
  by_cases hlk : ∃ v, holds (k.pc v) = true
  · obtain ⟨v, hv⟩ := hlk
    obtain ⟨k1, s1, g1, g2, _⟩ := finish hf v (fun _ => True) (fun _ _ _ _ _ => trivial) _ h (Nat.le_refl _)
      (fun w hw => hl.one w v hw hv) trivial
    rcases g1 with g1 | g1
    · have hno : ∀ w, holds (k1.pc w) ≠ true := by
        intro w hw
        by_cases hwv : w = v
        · rw [hwv, g1] at hw; cases hw
        · rw [g2 w hwv] at hw
          exact hwv (hl.one w v hw hv)
      obtain ⟨k2, s2, g3, _⟩ := finish hf t (fun _ => True) (fun _ _ _ _ _ => trivial) _ (h.steps s1) (Nat.le_refl _)
        (fun w hw => absurd hw (hno w)) trivial
      exact ⟨k2, s1.trans s2, g3.imp_right (fun h => ⟨t, h⟩)⟩
    · exact ⟨k1, s1, Or.inr ⟨v, g1⟩⟩
  · obtain ⟨k1, s1, g1, _⟩ := finish hf t (fun _ => True) (fun _ _ _ _ _ => trivial) _ h (Nat.le_refl _)
      (fun w hw => absurd ⟨w, hw⟩ hlk) trivial
    exact ⟨k1, s1, g1.imp_right (fun h => ⟨t, h⟩)⟩

/-- The positions of a call of `sctk_alloc_chain_free`. -/
def Freeing : Pc → Prop
  | .idle | .freeRead _ none | .swap (.free _ _ none) | .load (.free _ _ none) | .crit (.free _ _ none) | .unlockF none
  | .hugeFree _ _ none | .cntLoad none | .cntStore _ none => True
  | _ => False

theorem free_step {k k' : KS Light} {t : Nat} {a : Act} (hi : k.pc t ≠ .idle) (hp : Freeing (k.pc t))
    (h : step (lightSource C) C k t a = .ok k') : Freeing (k'.pc t) ∧ k'.live = k.live := by
  have hg : ∀ (z : KS Light) (p : Pc), (z.goto t p).pc t = p := fun z p => if_pos rfl
  unfold step at h
  cases e : k.pc t with
  | idle => exact absurd e hi
  | freeRead p r =>
    rw [e] at hp h
    cases r with
    | some d => exact hp.elim
    | none =>
      simp only at h
      obtain ⟨v, _, h⟩ := Outcome.bind_eq_ok h
      split at h
      · split at h
        · cases h
        · cases h; exact ⟨by rw [hg]; trivial, rfl⟩
      split at h
      · cases h
      · cases h
        refine ⟨?_, rfl⟩
        rw [hg]
        split <;> trivial
  | swap j =>
    rw [e] at hp h
    cases j with
    | alloc => exact hp.elim
    | free p v r =>
      cases r with
      | some d => exact hp.elim
      | none =>
        cases h
        refine ⟨?_, rfl⟩
        rw [hg]
        split <;> trivial
  | load j =>
    rw [e] at hp h
    cases j with
    | alloc => exact hp.elim
    | free p v r =>
      cases r with
      | some d => exact hp.elim
      | none =>
        cases h
        refine ⟨?_, rfl⟩
        rw [hg]
        split <;> trivial
  | crit j =>
    rw [e] at hp h
    cases j with
    | alloc => exact hp.elim
    | free p v r =>
      cases r with
      | some d => exact hp.elim
      | none =>
        obtain ⟨s, _, h⟩ := Outcome.bind_eq_ok h
        cases h
        exact ⟨by rw [hg]; trivial, rfl⟩
  | unlockF r =>
    rw [e] at hp h
    cases r with
    | some d => exact hp.elim
    | none => cases h; exact ⟨by rw [hg]; trivial, rfl⟩
  | hugeFree p v r =>
    rw [e] at hp h
    cases r with
    | some d => exact hp.elim
    | none =>
      simp only at h
      split at h
      · cases h; exact ⟨by rw [hg]; trivial, rfl⟩
      · obtain ⟨s, _, h⟩ := Outcome.bind_eq_ok h
        cases h
        exact ⟨by rw [hg]; trivial, rfl⟩
  | cntLoad r =>
    rw [e] at hp h
    cases r with
    | some d => exact hp.elim
    | none => cases h; exact ⟨by rw [hg]; trivial, rfl⟩
  | cntStore x r =>
    rw [e] at hp h
    cases r with
    | some d => exact hp.elim
    | none =>
      simp only at h
      split at h
      · cases h
      · cases h; exact ⟨by rw [hg]; trivial, rfl⟩
  | _ => rw [e] at hp; exact hp.elim

theorem Freeing.mem {k : KS Light} {t : Nat} (h : Freeing (k.pc t)) : StepMem k t := by
  unfold StepMem
  cases e : k.pc t with
  | crit j =>
    cases j with
    | alloc => rw [e] at h; exact h.elim
    | free => trivial
  | hugeReq => rw [e] at h; exact h.elim
  | _ => trivial

/-- C56: a thread frees a block, of whatever thread, in a state where no other one has the lock: it is out of its call after some
steps of its own, without any request to the kernel; the other threads did not move, and clients own the other blocks. -/
theorem C56_free_ends_partial (hf : C.reallocFactor ≠ 0) (h : Reach C addr pb X k) {t : Nat} (ht : k.pc t = .idle)
    {l : Blk} (hl : l ∈ k.live) (hX : X (.free l.ptr)) (hu : k.s.c.lock = false) :
    ∃ k', Steps C X k k' ∧ (∀ v, k'.pc v = k.pc v) ∧ ∀ l', l' ∈ k'.live ↔ l' ∈ k.live ∧ l'.ptr ≠ l.ptr := by
  obtain ⟨⟨u, A, L, H, d, I⟩, hlk⟩ := h.inv False False.elim
  have e1 : step (lightSource C) C k t (.free l.ptr) = .ok ((k.take l.ptr).goto t (.freeRead l.ptr none)) := by
    unfold step
    rw [ht]
    exact if_neg (I.live_nz hl)
  have hv : k.pc t = .idle → Valid k (.free l.ptr) ∧ X (.free l.ptr) := fun _ => ⟨Or.inr ⟨l, hl, rfl⟩, hX⟩
  have h1 := h.step hv e1
  obtain ⟨k1, hk1⟩ : ∃ k1, k1 = (k.take l.ptr).goto t (.freeRead l.ptr none) := ⟨_, rfl⟩
  rw [← hk1] at h1 e1
  have p1 : k1.pc t = .freeRead l.ptr none := by rw [hk1]; exact if_pos rfl
  have q1 : ∀ v, v ≠ t → k1.pc v = k.pc v := fun v hv => by rw [hk1]; exact if_neg hv
  obtain ⟨k2, s2, g1, g2, g3, g4⟩ := finish hf t (fun z => Freeing (z.pc t) ∧ z.live = k1.live)
    (fun z z' hz hi hs => by
      obtain ⟨a, b⟩ := free_step hi hz.1 hs
      exact ⟨a, b.trans hz.2⟩) _ h1 (Nat.le_refl _) (by
      intro v hh
      by_contra hvt
      rw [q1 v hvt] at hh
      have := hlk.iff.2 ⟨v, hh⟩
      rw [hu] at this
      cases this) ⟨by rw [p1]; trivial, rfl⟩
  refine ⟨k2, .step hv e1 s2, fun v => ?_, fun l' => ?_⟩
  · by_cases hvt : v = t
    · rcases g1 with g1 | g1
      · rw [hvt, g1, ht]
      · exact absurd g3.mem g1
    · rw [g2 v hvt, q1 v hvt]
  · rw [g4, hk1]
    show l' ∈ k.live.filter _ ↔ _
    rw [List.mem_filter, decide_eq_true_iff]

/-! ## Nothing is lost -/

/-- C56: when no call is running and clients own no block, every bloc is back at the source and nothing is registered in the
regions, provided that no request was made of a size just below the huge limit (finding 5). -/
theorem C56_nothing_lost_partial (h : Reach C addr pb X k) (hX : ∀ a, X a → CleanAct a) (hq : ∀ t, k.pc t = .idle)
    (hl : k.live = []) : k.s.w.src.counter = 0 ∧ ∀ i, k.s.w.regs.ent i = 0 := by
  obtain ⟨⟨u, A, L, H, d, I⟩, _⟩ := h.inv True (fun _ => hX)
  obtain ⟨c1, c2⟩ := I.clean trivial
  have hnone : ∀ c, ¬ A.Used c := by
    intro c hc
    obtain ⟨_, i, hi⟩ := c2 c hc
    cases i with
    | blk p =>
      obtain ⟨l, h1, _⟩ := I.back p c hi
      rw [hl] at h1; cases h1
    | new t =>
      have := I.pcs t
      rw [hq t] at this
      rw [this.1] at hi; cases hi
    | old t =>
      have := I.pcs t
      rw [hq t] at this
      rw [this.2] at hi; cases hi
  have hsh : A.shape = [] := by
    cases hA : A.shape with
    | nil => rfl
    | cons x q =>
      obtain ⟨c, hc, _⟩ := c1 x (by rw [hA]; exact List.mem_cons_self)
      exact absurd hc (hnone c)
  rw [I.mem]
  constructor
  · rw [I.inv.lin.cnt, hsh]; rfl
  · intro i
    by_contra hne
    obtain ⟨x, hx, _⟩ := I.inv.reg.own i hne
    rw [hsh] at hx
    simp [areas, Env.none] at hx

/-! ## Selection of the chain -/

/-- C56: with NUMA nodes, node `i` is served by the chain `i` if that one was set up, and by no other; every other number ends the
program. Without NUMA nodes only 0 is accepted. -/
theorem C56_node {nodes : Nat} (hn : nodes ≤ 128) (numa : Bool) (node : Int) :
    (∀ r, nodeIndex nodes numa node = .ok r →
      (numa = true ∧ 0 ≤ node ∧ node < nodes ∧ ∃ i : Nat, r = some i ∧ (i : Int) = node) ∨ (numa = false ∧ node = 0 ∧ r = none)) ∧
    (nodeIndex nodes numa node = .abort ↔ ¬ ((numa = true ∧ 0 ≤ node ∧ node < nodes) ∨ (numa = false ∧ node = 0))) := by
  unfold nodeIndex
  cases numa with
  | true =>
    simp only [if_true, true_and, Bool.true_eq_false, false_and, or_false]
    by_cases h1 : 0 ≤ node ∧ node < 128
    · rw [if_pos h1]
      by_cases h2 : node < nodes
      · rw [if_pos h2]
        refine ⟨fun r hr => ?_, ⟨fun h => (by cases h), fun h => absurd ⟨h1.1, h2⟩ h⟩⟩
        cases hr
        exact ⟨h1.1, h2, node.toNat, rfl, by omega⟩
      · rw [if_neg h2]
        exact ⟨fun r hr => (by cases hr), ⟨fun _ h => h2 h.2, fun _ => rfl⟩⟩
    · rw [if_neg h1]
      exact ⟨fun r hr => (by cases hr), ⟨fun _ h => h1 (by omega), fun _ => rfl⟩⟩
  | false =>
    simp only [Bool.false_eq_true, if_false, false_and, false_or, true_and]
    by_cases h1 : node = 0
    · rw [if_pos h1]
      exact ⟨fun r hr => ⟨h1, (by cases hr; rfl)⟩, ⟨fun h => (by cases h), fun h => absurd h1 h⟩⟩
    · rw [if_neg h1]
      exact ⟨fun r hr => (by cases hr), ⟨fun _ => h1, fun _ => rfl⟩⟩

/-! ## The counter of blocs -/

/-- The steps of `Reach` when no thread changes the counter of blocs while another one is between its read and its write
of it (lines 1304 and 1568). -/
inductive Calm (C : Config) (addr pb : Nat) (X : Act → Prop) : KS Light → Prop
  | init {m : Mem} {R : Regions} {o : Os} {s : CS Light} : R.OK → (∀ i, R.ent i = 0) →
      (∀ x, x ≤ MB2 → o.used x = true) → 0 < pb → pb + 1536 < W64 →
      (∀ x, pb ≤ x → x < pb + 1536 → o.used x = true) →
      nodeChain ⟨m, R, Light.init o⟩ addr pb = .ok s →
      Calm C addr pb X ⟨s, fun _ => .idle, [], fun _ => none⟩
  | step {k k' : KS Light} {t : Nat} {a : Act} : Calm C addr pb X k → (k.pc t = .idle → Valid k a ∧ X a) →
      step (lightSource C) C k t a = .ok k' →
      (k'.s.c.cnt ≠ k.s.c.cnt → ∀ v, v ≠ t → (∀ b n c x q, k.pc v ≠ .hugeStore b n c x q) ∧ ∀ x r, k.pc v ≠ .cntStore x r) →
      Calm C addr pb X k'

/-- Sum over the first threads. -/
def sumTo (f : Nat → Int) : Nat → Int
  | 0 => 0
  | n + 1 => sumTo f n + f n

theorem sumTo_congr {f g : Nat → Int} : ∀ {n : Nat}, (∀ i, i < n → f i = g i) → sumTo f n = sumTo g n
  | 0, _ => rfl
  | n + 1, h => by
    show sumTo f n + f n = sumTo g n + g n
    rw [sumTo_congr (fun i hi => h i (by omega)), h n (by omega)]

theorem sumTo_set {f g : Nat → Int} {t : Nat} (h : ∀ i, i ≠ t → g i = f i) : ∀ {n : Nat}, t < n →
    sumTo g n = sumTo f n + g t - f t
  | 0, ht => by omega
  | n + 1, ht => by
    show sumTo g n + g n = sumTo f n + f n + g t - f t
    by_cases hn : t = n
    · rw [← hn, sumTo_congr (g := f) (fun i hi => h i (by omega))]
      omega
    · rw [sumTo_set h (by omega), h n (by omega)]
      omega

theorem sumTo_pad {f : Nat → Int} {n : Nat} (h : ∀ i, n ≤ i → f i = 0) : ∀ m, sumTo f (n + m) = sumTo f n
  | 0 => rfl
  | m + 1 => by
    show sumTo f (n + m) + f (n + m) = _
    rw [sumTo_pad h m, h _ (by omega)]
    omega

theorem sumTo_zero {f : Nat → Int} (h : ∀ i, f i = 0) : ∀ n, sumTo f n = 0
  | 0 => rfl
  | n + 1 => by
    show sumTo f n + f n = 0
    rw [sumTo_zero h n, h]
    omega

theorem Calm.reach (h : Calm C addr pb X k) : Reach C addr pb X k := by
  induction h with
  | init h1 h2 h3 h4 h5 h6 e => exact .init h1 h2 h3 h4 h5 h6 e
  | step _ hv e _ ih => exact ih.step hv e

theorem Calm.inv (h : Calm C addr pb X k) : (∀ t x, pending (k.pc t) = some x → x = k.s.c.cnt) ∧
    ∃ n, (∀ t, n ≤ t → owed (k.pc t) = 0) ∧ k.s.c.cnt - k.s.w.src.counter = sumTo (fun t => owed (k.pc t)) n := by
  induction h with
  | @init m R o s h1 h2 h3 h4 h5 h6 e =>
    obtain ⟨I, _⟩ := init_inv (cl := False) h1 h2 h3 h4 h5 h6 e
    have h0 := I.diff'
    exact ⟨fun t x h => (by cases h), 0, fun _ _ => rfl, h0.symm⟩
  | @step k k' t a hk hv e hc ih =>
    obtain ⟨i1, n, i2, i3⟩ := ih
    obtain ⟨⟨u, A, L, H, d, I⟩, _⟩ := hk.reach.inv False False.elim
    rcases I.next (C := C) (t := t) a (fun h => (hv h).1) (fun _ => False.elim) with
      ⟨e', _⟩ | ⟨k1, u', A', L', H', d', e', I', ⟨p', hpc, _⟩, c1, c2⟩
    · rw [e'] at e; cases e
    rw [e'] at e
    cases Outcome.ok.inj e
    have hv : ∀ v, v ≠ t → k'.pc v = k.pc v := fun v hv => by rw [hpc]; exact if_neg hv
    have c3 := c1 (fun x hx => i1 t x hx)
    rw [I.diff', I'.diff'] at c3
    refine ⟨fun v x hx => ?_, max n (t + 1), fun v hge => ?_, ?_⟩
    · by_cases hvt : v = t
      · rw [hvt] at hx; exact c2 x hx
      · rw [hv v hvt] at hx
        by_cases hne : k'.s.c.cnt = k.s.c.cnt
        · rw [hne]; exact i1 v x hx
        · obtain ⟨g1, g2⟩ := hc hne v hvt
          cases hp : k.pc v with
          | hugeStore b n c x q => exact absurd hp (g1 _ _ _ _ _)
          | cntStore x r => exact absurd hp (g2 _ _)
          | _ => rw [hp] at hx; cases hx
    · rw [hv v (by omega)]
      exact i2 v (by omega)
    · have h1 := sumTo_set (f := fun v => owed (k.pc v)) (g := fun v => owed (k'.pc v)) (t := t)
        (fun i hi => by rw [hv i hi]) (n := max n (t + 1)) (by omega)
      have h2 := sumTo_pad (f := fun v => owed (k.pc v)) i2 (max n (t + 1) - n)
      rw [show n + (max n (t + 1) - n) = max n (t + 1) by omega] at h2
      rw [h1, h2, ← i3]
      omega

/-- C56: when no call is running, the counter of the blocs of the chain is the number of blocs that it got from the source and has
not given back, provided that no thread changed the counter while another one was updating it for a huge block. -/
theorem C56_count_partial (h : Calm C addr pb X k) (hi : ∀ t, k.pc t = .idle) : k.s.c.cnt = k.s.w.src.counter := by
  obtain ⟨_, n, _, h⟩ := h.inv
  rw [sumTo_zero (fun t => by rw [hi t]; rfl)] at h
  omega

theorem prepRes_keeps {s s' : CS Light} {b v z : Nat} {m : Mem} (h : prepRes s b m z = .ok (s', v)) :
    s'.c = s.c ∧ s'.w.src = s.w.src := by
  unfold prepRes at h
  split at h
  · rw [← (Prod.mk.inj (Outcome.ok.inj h)).1]; exact ⟨rfl, rfl⟩
  split at h
  · rw [← (Prod.mk.inj (Outcome.ok.inj h)).1]; exact ⟨rfl, rfl⟩
  cases hr : regionSetEntry m s.w.regs s.c.addr b with
  | ok p => rw [hr, ok_bind'] at h; rw [← (Prod.mk.inj (Outcome.ok.inj h)).1]; exact ⟨rfl, rfl⟩
  | _ => rw [hr] at h; cases h

theorem prepareBloc_keeps {s s' : CS Light} {b v : Nat} (h : prepareBloc s b = .ok (s', v)) :
    s'.c = s.c ∧ s'.w.src = s.w.src := prepRes_keeps ((prepareBloc_res s b).symm.trans h)

/-- A bloc that is too large for the cache is mapped. -/
theorem takeBloc_out {s s' : CS Light} {n v : Nat} (h : takeBloc (lightSource C) s n = .ok (s', v)) (hs : s.c.hasSrc = true)
    (hn : C.keepMax < requestSize n) : s'.c = s.c ∧ s'.w.src.counter = s.w.src.counter + 1 ∧
      s'.w.src.os = (mmap s.w.mem s.w.src.os (requestSize n)).2.1 := by
  have hr : (lightSource C).request s.w.mem s.w.src (requestSize n) = lightMmap s.w.mem s.w.src (requestSize n) := by
    show lightRequest C s.w.mem s.w.src (requestSize n) = _
    unfold lightRequest lightKeep
    rw [if_neg (by omega), decide_eq_false (by omega), Bool.false_and, if_neg (by simp), Outcome.pure_eq, Outcome.ok_bind]
    exact if_pos rfl
  unfold takeBloc at h
  rw [if_neg (by rw [hs]; simp), hr] at h
  unfold lightMmap at h
  generalize mmap s.w.mem s.w.src.os (requestSize n) = z at h ⊢
  obtain ⟨m, o, b⟩ := z
  simp only at h ⊢
  split at h
  · cases h
  · split at h
    · cases h
    · rw [Outcome.ok_bind] at h
      obtain ⟨h1, h2⟩ := prepareBloc_keeps h
      exact ⟨h1, by rw [h2], by rw [h2]⟩

/-- A huge allocation gets its bloc. -/
theorem huge_step (hf : C.reallocFactor ≠ 0) (h : Reach C addr pb X k) {t b n : Nat} {q : Cont} (hp : k.pc t = .hugeReq b n q)
    (hm : StepMem k t) (a : Act) : ∃ s v, takeBloc (lightSource C) k.s (withBound b n) = .ok (s, v) ∧ v ≠ 0 ∧
      step (lightSource C) C k t a = .ok ({ k with s := s }.goto t (.hugeLoad b n v q)) := by
  have hi : k.pc t ≠ .idle := by rw [hp]; intro h; cases h
  obtain ⟨k', e⟩ := C56_no_failure_partial (a := a) hf h (fun h => absurd h hi) hm
  obtain ⟨⟨u, A, L, H, d, I⟩, _⟩ := (h.step (fun h => absurd h hi) e).inv False False.elim
  have e0 := e
  unfold step at e0
  rw [hp] at e0
  simp only at e0
  obtain ⟨⟨s, v⟩, e1, e2⟩ := Outcome.bind_eq_ok e0
  have e3 : k' = { k with s := s }.goto t (if v = 0 then .pad b n v q else .hugeLoad b n v q) := (Outcome.ok.inj e2).symm
  have hv : v ≠ 0 := by
    have := I.pcs t
    rw [e3] at this
    have ht : (KS.goto { k with s := s } t (if v = 0 then .pad b n v q else .hugeLoad b n v q)).pc t =
        (if v = 0 then .pad b n v q else .hugeLoad b n v q) := if_pos rfl
    rw [ht] at this
    rintro rfl
    rw [if_pos rfl] at this
    obtain ⟨⟨c, _, _, h, _⟩, _⟩ := this
    omega
  rw [if_neg hv] at e3
  exact ⟨s, v, e1, hv, by rw [e, e3]⟩

/-- An allocation without boundary ends. -/
theorem pad_step (h : Reach C addr pb X k) {t n v : Nat} (hp : k.pc t = .pad 0 n v .ret) (hv : v ≠ 0) :
    ∃ k', Reach C addr pb X k' ∧ k'.s = k.s ∧ (∀ u, k'.pc u = if u = t then .idle else k.pc u) ∧
      k'.live = ⟨chunkBody v, n, 0⟩ :: k.live ∧ step (lightSource C) C k t (.free 0) = .ok k' := by
  have e : padAndReturn k.s v 0 = (k.s, if v = 0 then 0 else chunkBody v) := by
    unfold padAndReturn
    rw [if_neg (by omega)]
    rfl
  rw [if_neg hv] at e
  have st : step (lightSource C) C k t (.free 0) = .ok (KS.allocated { k with s := k.s } t 0 n (chunkBody v) .ret) := by
    unfold step
    rw [hp]
    simp only
    rw [e]
  have hz : chunkBody v ≠ 0 := by
    obtain ⟨⟨u, A, L, H, d, I⟩, _⟩ := h.inv False False.elim
    have := I.pcs t
    rw [hp] at this
    obtain ⟨⟨c, e1, _, h, _⟩, _⟩ := this
    have b4 := I.inv.ch.room c (I.used _ _ e1)
    have hW := I.inv.ch.wf
    obtain ⟨g, hg, hcg⟩ := (I.used _ _ e1).1
    have hbd := (hW.seg g hg).bounds hcg
    have hgood := I.inv.lin.good (g.base, g.size) (by simp [mem_shape.2 ⟨g, hg, rfl⟩])
    obtain ⟨_, hlt, _⟩ := hgood
    unfold chunkBody add64
    rw [if_neg hv]
    omega
  refine ⟨_, h.step (fun h => by rw [hp] at h; cases h) st, ?_, ?_, ?_, st⟩
  all_goals
    unfold KS.allocated
    simp only
    rw [if_neg hz]
  · rfl
  · intro u; rfl
  · rfl

/-- A kernel that always has memory. -/
def os2 : Os := ⟨fun k => 1099511627776 + k * 4294967296, 0, fun x => decide (x ≤ MB2 ∨ (4194304 ≤ x ∧ x < 4194304 + 1536))⟩

/-- A chain that was just started. -/
theorem sample_start (C : Config) (X : Act → Prop) : ∃ s : CS Light, Reach C 4194304 4194304 X ⟨s, fun _ => .idle, [], fun _ => none⟩ ∧
    s.c.cnt = 0 ∧ s.c.hasSrc = true ∧ s.c.lock = false ∧ s.w.src = Light.init os2 ∧
    Calm C 4194304 4194304 X ⟨s, fun _ => .idle, [], fun _ => none⟩ := by
  obtain ⟨u, e, I, eR, eS, e1, e2, e3, e4, e5, e6, e7, e8, e9, e10, _⟩ :=
    chainBaseInit_ok ⟨fun _ => 0, Regions.empty, Light.init os2⟩ (addr := 4194304) (pb := 4194304) true false false (by omega) (by omega)
  have eu : nodeChain ⟨fun _ => 0, Regions.empty, Light.init os2⟩ 4194304 4194304 = .ok { u with c := { u.c with hasSrc := true } } := by
    unfold nodeChain userInit
    rw [e, Outcome.ok_bind, if_neg (by simp), Outcome.pure_eq, Outcome.ok_bind]
    rfl
  have h1 : ∀ x, x ≤ MB2 → os2.used x = true := by intro x hx; simp [os2]; omega
  have h2 : ∀ x, 4194304 ≤ x → x < 4194304 + 1536 → os2.used x = true := by intro x h1 h2; simp [os2]; omega
  exact ⟨_, .init Regions.empty_ok (fun _ => rfl) h1 (by omega) (by omega) h2 eu, e7, rfl, I.lock, eS,
    .init Regions.empty_ok (fun _ => rfl) h1 (by omega) (by omega) h2 eu⟩

/-- C56: the counter of the blocs of the chain is not the number of blocs that it got from the source, since it is updated
without lock for huge blocks: two threads allocate 16 MB each, both read the counter before one of them writes it. -/
theorem C56_refuted_count {X : Act → Prop} (hX : X (.alloc 0 16777216)) : ∃ k : KS Light, Reach Config.default 4194304 4194304 X k ∧ (∀ t, k.pc t = .idle) ∧
    k.s.w.src.counter = 2 ∧ k.s.c.cnt = 1 ∧ ∃ p p', k.live = [⟨p, 16777216, 0⟩, ⟨p', 16777216, 0⟩] := by
  obtain ⟨s, h0, c0, hs0, _, src0, _⟩ := sample_start Config.default X
  have hz : reqSize 0 16777216 = 16777216 := by decide
  have hw : withBound 0 16777216 = 16777216 := rfl
  have hreq : requestSize 16777216 = 18874368 := by decide
  have hV : ∀ k : KS Light, Valid k (.alloc 0 16777216) := fun k => ⟨Or.inl (by omega), by rw [hz]; unfold PSize; omega⟩
  have huge : ∀ c : Chain, c.hasSrc = true → isHuge c (withBound 0 16777216) = true := by
    intro c hc
    unfold isHuge
    rw [hc, hw]
    decide
  have hf : Config.default.reallocFactor ≠ 0 := by decide
  obtain ⟨k0, hk0⟩ : ∃ k0 : KS Light, k0 = ⟨s, fun _ => .idle, [], fun _ => none⟩ := ⟨_, rfl⟩
  rw [← hk0] at h0
  have ks0 : k0.s = s := by rw [hk0]
  have kp0 : ∀ t, k0.pc t = .idle := fun t => by rw [hk0]
  -- both threads are at the request of their bloc
  have h1 : Reach Config.default 4194304 4194304 X (k0.goto 0 (.hugeReq 0 16777216 .ret)) := by
    refine h0.step (t := 0) (a := .alloc 0 16777216) (fun _ => ⟨hV _, hX⟩) ?_
    unfold step
    rw [kp0 0]
    unfold start KS.enter
    simp only
    rw [if_neg (by omega), huge _ (by rw [ks0]; exact hs0), if_pos rfl]
  obtain ⟨k1, hk1⟩ : ∃ k1, k1 = k0.goto 0 (.hugeReq 0 16777216 .ret) := ⟨_, rfl⟩
  rw [← hk1] at h1
  have ks1 : k1.s = s := by rw [hk1]; exact ks0
  have kp1 : ∀ t, t ≠ 0 → k1.pc t = .idle := fun t ht => by rw [hk1]; show (if t = 0 then _ else _) = _; rw [if_neg ht]; exact kp0 t
  have kq1 : k1.pc 0 = .hugeReq 0 16777216 .ret := by rw [hk1]; rfl
  have h2 : Reach Config.default 4194304 4194304 X (k1.goto 1 (.hugeReq 0 16777216 .ret)) := by
    refine h1.step (t := 1) (a := .alloc 0 16777216) (fun _ => ⟨hV _, hX⟩) ?_
    unfold step
    rw [kp1 1 (by omega)]
    unfold start KS.enter
    simp only
    rw [if_neg (by omega), huge _ (by rw [ks1]; exact hs0), if_pos rfl]
  obtain ⟨k2, hk2⟩ : ∃ k2, k2 = k1.goto 1 (.hugeReq 0 16777216 .ret) := ⟨_, rfl⟩
  rw [← hk2] at h2
  have ks2 : k2.s = s := by rw [hk2]; exact ks1
  have kp2 : ∀ t, t ≠ 0 → t ≠ 1 → k2.pc t = .idle := fun t h0 h1 => by
    rw [hk2]; show (if t = 1 then _ else _) = _; rw [if_neg h1]; exact kp1 t h0
  have kq2 : k2.pc 0 = .hugeReq 0 16777216 .ret := by rw [hk2]; exact kq1
  have kr2 : k2.pc 1 = .hugeReq 0 16777216 .ret := by rw [hk2]; rfl
  have hpg : pageUp (16777216 + 80 + MB2) ≤ 4294967296 := by unfold pageUp; omega
  have hpr : pageUp 18874368 ≤ 4294967296 := by unfold pageUp; omega
  -- thread 0 gets its bloc
  have m2 : StepMem k2 0 := by
    unfold StepMem
    rw [kq2]
    simp only
    rw [ks2, src0, hz]
    refine ⟨by omega, by decide, by decide, ?_, fun i hi => ?_⟩
    · show 1099511627776 + 0 * 4294967296 + _ ≤ _
      omega
    · show decide (1099511627776 + 0 * 4294967296 + i ≤ MB2 ∨
        (4194304 ≤ 1099511627776 + 0 * 4294967296 + i ∧ 1099511627776 + 0 * 4294967296 + i < 4194304 + 1536)) = false
      exact decide_eq_false (by omega)
  obtain ⟨s3, v0, e3, hv0, st3⟩ := huge_step hf h2 kq2 m2 (.free 0)
  rw [hw, ks2] at e3
  obtain ⟨c3, n3, o3⟩ := takeBloc_out e3 hs0 (by rw [hreq]; decide)
  rw [hreq, src0] at o3
  rw [src0] at n3
  have h3 := h2.step (fun h => by rw [kq2] at h; cases h) st3
  obtain ⟨k3, hk3⟩ : ∃ k3, k3 = KS.goto { k2 with s := s3 } 0 (.hugeLoad 0 16777216 v0 .ret) := ⟨_, rfl⟩
  rw [← hk3] at h3
  have ks3 : k3.s = s3 := by rw [hk3]; rfl
  have kp3 : ∀ t, t ≠ 0 → t ≠ 1 → k3.pc t = .idle := fun t h0 h1 => by
    rw [hk3]; show (if t = 0 then _ else _) = _; rw [if_neg h0]; exact kp2 t h0 h1
  have kq3 : k3.pc 0 = .hugeLoad 0 16777216 v0 .ret := by rw [hk3]; rfl
  have kr3 : k3.pc 1 = .hugeReq 0 16777216 .ret := by rw [hk3]; exact kr2
  -- thread 1 gets its bloc
  have fr : (Light.init os2).os.Fresh ((Light.init os2).os.ans (Light.init os2).os.k) 18874368 := by
    refine ⟨by omega, by decide, by decide, ?_, fun i hi => ?_⟩
    · show 1099511627776 + 0 * 4294967296 + _ ≤ _
      omega
    · show decide (1099511627776 + 0 * 4294967296 + i ≤ MB2 ∨
        (4194304 ≤ 1099511627776 + 0 * 4294967296 + i ∧ 1099511627776 + 0 * 4294967296 + i < 4194304 + 1536)) = false
      exact decide_eq_false (by omega)
  have o3' : s3.w.src.os.k = 1 ∧ s3.w.src.os.ans = os2.ans ∧ ∀ x, 1099511627776 + 4294967296 ≤ x → s3.w.src.os.used x = false := by
    unfold mmap at o3
    simp only at o3
    rw [if_pos fr] at o3
    rw [o3]
    refine ⟨rfl, rfl, fun x hx => ?_⟩
    show (if 1099511627776 + 0 * 4294967296 ≤ x ∧ x < 1099511627776 + 0 * 4294967296 + pageUp 18874368 then true else
      decide (x ≤ MB2 ∨ (4194304 ≤ x ∧ x < 4194304 + 1536))) = false
    rw [if_neg (by omega)]
    exact decide_eq_false (by omega)
  have m3 : StepMem k3 1 := by
    unfold StepMem
    rw [kr3]
    simp only
    rw [ks3, hz, o3'.1, o3'.2.1]
    refine ⟨by omega, by decide, by decide, ?_, fun i hi => ?_⟩
    · show 1099511627776 + 1 * 4294967296 + _ ≤ _
      omega
    · exact o3'.2.2 _ (by show _ ≤ 1099511627776 + 1 * 4294967296 + i; omega)
  obtain ⟨s4, v1, e4, hv1, st4⟩ := huge_step hf h3 kr3 m3 (.free 0)
  rw [hw, ks3] at e4
  obtain ⟨c4, n4, _⟩ := takeBloc_out e4 (by rw [c3]; exact hs0) (by rw [hreq]; decide)
  have h4 := h3.step (fun h => by rw [kr3] at h; cases h) st4
  obtain ⟨k4, hk4⟩ : ∃ k4, k4 = KS.goto { k3 with s := s4 } 1 (.hugeLoad 0 16777216 v1 .ret) := ⟨_, rfl⟩
  rw [← hk4] at h4
  have ks4 : k4.s = s4 := by rw [hk4]; rfl
  have kp4 : ∀ t, t ≠ 0 → t ≠ 1 → k4.pc t = .idle := fun t h0 h1 => by
    rw [hk4]; show (if t = 1 then _ else _) = _; rw [if_neg h1]; exact kp3 t h0 h1
  have kq4 : k4.pc 0 = .hugeLoad 0 16777216 v0 .ret := by rw [hk4]; exact kq3
  have kr4 : k4.pc 1 = .hugeLoad 0 16777216 v1 .ret := by rw [hk4]; rfl
  have cnt4 : s4.c.cnt = 0 := by rw [c4, c3]; exact c0
  have num4 : s4.w.src.counter = 2 := by rw [n4, n3]; rfl
  have kl4 : k4.live = [] := by rw [hk4]; show k3.live = []; rw [hk3]; show k2.live = []; rw [hk2]; show k1.live = []; rw [hk1]; show k0.live = []; rw [hk0]
  clear hk0 hk1 hk2 hk3 hk4 n3 n4 c3 c4 e3 e4 st3 st4 m2 m3 o3 o3' fr h0 h1 h2 h3
  -- both threads read the counter
  have h5 : Reach Config.default 4194304 4194304 X (k4.goto 0 (.hugeStore 0 16777216 v0 0 .ret)) := by
    refine h4.step (t := 0) (a := .free 0) (fun h => by rw [kq4] at h; cases h) ?_
    unfold step
    rw [kq4]
    simp only
    rw [ks4, cnt4]
  obtain ⟨k5, hk5⟩ : ∃ k5, k5 = k4.goto 0 (.hugeStore 0 16777216 v0 0 .ret) := ⟨_, rfl⟩
  rw [← hk5] at h5
  have ks5 : k5.s = s4 := by rw [hk5]; exact ks4
  have kp5 : ∀ t, t ≠ 0 → t ≠ 1 → k5.pc t = .idle := fun t h0 h1 => by
    rw [hk5]; show (if t = 0 then _ else _) = _; rw [if_neg h0]; exact kp4 t h0 h1
  have kq5 : k5.pc 0 = .hugeStore 0 16777216 v0 0 .ret := by rw [hk5]; rfl
  have kr5 : k5.pc 1 = .hugeLoad 0 16777216 v1 .ret := by rw [hk5]; exact kr4
  have h6 : Reach Config.default 4194304 4194304 X (k5.goto 1 (.hugeStore 0 16777216 v1 0 .ret)) := by
    refine h5.step (t := 1) (a := .free 0) (fun h => by rw [kr5] at h; cases h) ?_
    unfold step
    rw [kr5]
    simp only
    rw [ks5, cnt4]
  obtain ⟨k6, hk6⟩ : ∃ k6, k6 = k5.goto 1 (.hugeStore 0 16777216 v1 0 .ret) := ⟨_, rfl⟩
  rw [← hk6] at h6
  have ks6 : k6.s = s4 := by rw [hk6]; exact ks5
  have kp6 : ∀ t, t ≠ 0 → t ≠ 1 → k6.pc t = .idle := fun t h0 h1 => by
    rw [hk6]; show (if t = 1 then _ else _) = _; rw [if_neg h1]; exact kp5 t h0 h1
  have kq6 : k6.pc 0 = .hugeStore 0 16777216 v0 0 .ret := by rw [hk6]; exact kq5
  have kr6 : k6.pc 1 = .hugeStore 0 16777216 v1 0 .ret := by rw [hk6]; rfl
  -- both threads write it
  have h7 : Reach Config.default 4194304 4194304 X ((k6.setCnt 1).goto 0 (.pad 0 16777216 v0 .ret)) := by
    refine h6.step (t := 0) (a := .free 0) (fun h => by rw [kq6] at h; cases h) ?_
    unfold step
    rw [kq6]
    rfl
  obtain ⟨k7, hk7⟩ : ∃ k7, k7 = (k6.setCnt 1).goto 0 (.pad 0 16777216 v0 .ret) := ⟨_, rfl⟩
  rw [← hk7] at h7
  have ks7 : k7.s.w.src.counter = 2 := by rw [hk7]; show k6.s.w.src.counter = 2; rw [ks6]; exact num4
  have kp7 : ∀ t, t ≠ 0 → t ≠ 1 → k7.pc t = .idle := fun t h0 h1 => by
    rw [hk7]; show (if t = 0 then _ else _) = _; rw [if_neg h0]; exact kp6 t h0 h1
  have kq7 : k7.pc 0 = .pad 0 16777216 v0 .ret := by rw [hk7]; rfl
  have kr7 : k7.pc 1 = .hugeStore 0 16777216 v1 0 .ret := by rw [hk7]; exact kr6
  have h8 : Reach Config.default 4194304 4194304 X ((k7.setCnt 1).goto 1 (.pad 0 16777216 v1 .ret)) := by
    refine h7.step (t := 1) (a := .free 0) (fun h => by rw [kr7] at h; cases h) ?_
    unfold step
    rw [kr7]
    rfl
  obtain ⟨k8, hk8⟩ : ∃ k8, k8 = (k7.setCnt 1).goto 1 (.pad 0 16777216 v1 .ret) := ⟨_, rfl⟩
  rw [← hk8] at h8
  have ks8 : k8.s.w.src.counter = 2 := by rw [hk8]; exact ks7
  have kl8 : k8.live = [] := by rw [hk8]; show k7.live = []; rw [hk7]; show k6.live = []; rw [hk6]; show k5.live = []; rw [hk5]; exact kl4
  have kc8 : k8.s.c.cnt = 1 := by rw [hk8]; rfl
  have kp8 : ∀ t, t ≠ 0 → t ≠ 1 → k8.pc t = .idle := fun t h0 h1 => by
    rw [hk8]; show (if t = 1 then _ else _) = _; rw [if_neg h1]; exact kp7 t h0 h1
  have kq8 : k8.pc 0 = .pad 0 16777216 v0 .ret := by rw [hk8]; exact kq7
  have kr8 : k8.pc 1 = .pad 0 16777216 v1 .ret := by rw [hk8]; rfl
  -- both threads end
  obtain ⟨k9, h9, s9, p9, l9, _⟩ := pad_step h8 kq8 hv0
  obtain ⟨k10, h10, s10, p10, l10, _⟩ := pad_step h9 (show k9.pc 1 = _ by rw [p9, if_neg (by omega)]; exact kr8) hv1
  refine ⟨k10, h10, fun t => ?_, by rw [s10, s9]; exact ks8, by rw [s10, s9]; exact kc8, _, _, by rw [l10, l9, kl8]⟩
  rw [p10]
  split
  · rfl
  · rw [p9]
    split
    · rfl
    · exact kp8 t (by assumption) (by assumption)

/-! ## The hypotheses can be met -/

/-- One thread allocates a huge block, the others do nothing: `C56_count_partial`. -/
example : ∃ k : KS Light, Calm Config.default 4194304 4194304 (fun _ => True) k ∧ (∀ t, k.pc t = .idle) ∧ k.s.c.cnt = 1 := by
  obtain ⟨s, _, c0, hs0, _, src0, h0⟩ := sample_start Config.default (fun _ => True)
  have hz : reqSize 0 16777216 = 16777216 := by decide
  have hw : withBound 0 16777216 = 16777216 := rfl
  have hreq : requestSize 16777216 = 18874368 := by decide
  have huge : isHuge s.c (withBound 0 16777216) = true := by
    unfold isHuge
    rw [hs0, hw]
    decide
  have hf : Config.default.reallocFactor ≠ 0 := by decide
  obtain ⟨k0, hk0⟩ : ∃ k0 : KS Light, k0 = ⟨s, fun _ => .idle, [], fun _ => none⟩ := ⟨_, rfl⟩
  rw [← hk0] at h0
  have ks0 : k0.s = s := by rw [hk0]
  have kp0 : ∀ t, k0.pc t = .idle := fun t => by rw [hk0]
  have solo : ∀ {z : KS Light}, (∀ t, t ≠ 0 → z.pc t = .idle) → ∀ v, v ≠ 0 →
      (∀ b n c x q, z.pc v ≠ .hugeStore b n c x q) ∧ ∀ x r, z.pc v ≠ .cntStore x r := by
    intro z hz v hv
    rw [hz v hv]
    exact ⟨fun _ _ _ _ _ h => (by cases h), fun _ _ h => by cases h⟩
  have others : ∀ {z : KS Light} (p : Pc) (z' : KS Light), (∀ t, t ≠ 0 → z.pc t = .idle) → z'.pc = z.pc →
      ∀ t, t ≠ 0 → (z'.goto 0 p).pc t = .idle := by
    intro z p z' hz he t ht
    show (if t = 0 then p else z'.pc t) = _
    rw [if_neg ht, he]
    exact hz t ht
  have h1 : Calm Config.default 4194304 4194304 (fun _ => True) (k0.goto 0 (.hugeReq 0 16777216 .ret)) := by
    refine h0.step (t := 0) (a := .alloc 0 16777216) (fun _ => ⟨⟨Or.inl (by omega), by rw [hz]; unfold PSize; omega⟩, trivial⟩) ?_
      (fun _ => solo (fun t _ => kp0 t))
    unfold step
    rw [kp0 0]
    unfold start KS.enter
    simp only
    rw [if_neg (by omega), ks0, huge, if_pos rfl]
  have o1 := others (.hugeReq 0 16777216 .ret) k0 (fun t _ => kp0 t) rfl
  obtain ⟨k1, hk1⟩ : ∃ k1, k1 = k0.goto 0 (.hugeReq 0 16777216 .ret) := ⟨_, rfl⟩
  rw [← hk1] at h1 o1
  have ks1 : k1.s = s := by rw [hk1]; exact ks0
  have kq1 : k1.pc 0 = .hugeReq 0 16777216 .ret := by rw [hk1]; rfl
  have hpg : pageUp (16777216 + 80 + MB2) ≤ 4294967296 := by unfold pageUp; omega
  have m1 : StepMem k1 0 := by
    unfold StepMem
    rw [kq1]
    simp only
    rw [ks1, src0, hz]
    refine ⟨by omega, by decide, by decide, ?_, fun i hi => ?_⟩
    · show 1099511627776 + 0 * 4294967296 + _ ≤ _
      omega
    · show decide (1099511627776 + 0 * 4294967296 + i ≤ MB2 ∨
        (4194304 ≤ 1099511627776 + 0 * 4294967296 + i ∧ 1099511627776 + 0 * 4294967296 + i < 4194304 + 1536)) = false
      exact decide_eq_false (by omega)
  obtain ⟨s2, v, e2, hv, st2⟩ := huge_step hf h1.reach kq1 m1 (.free 0)
  rw [hw, ks1] at e2
  obtain ⟨c2, n2, _⟩ := takeBloc_out e2 hs0 (by rw [hreq]; decide)
  have h2 := h1.step (fun h => by rw [kq1] at h; cases h) st2 (fun _ => solo o1)
  have o2 := others (.hugeLoad 0 16777216 v .ret) { k1 with s := s2 } o1 rfl
  obtain ⟨k2, hk2⟩ : ∃ k2, k2 = KS.goto { k1 with s := s2 } 0 (.hugeLoad 0 16777216 v .ret) := ⟨_, rfl⟩
  rw [← hk2] at h2 o2
  have ks2 : k2.s = s2 := by rw [hk2]; rfl
  have kq2 : k2.pc 0 = .hugeLoad 0 16777216 v .ret := by rw [hk2]; rfl
  have h3 := h2.step (t := 0) (a := .free 0) (k' := k2.goto 0 (.hugeStore 0 16777216 v k2.s.c.cnt .ret))
    (fun h => by rw [kq2] at h; cases h) (by unfold step; rw [kq2]) (fun _ => solo o2)
  have o3 := others (.hugeStore 0 16777216 v k2.s.c.cnt .ret) k2 o2 rfl
  obtain ⟨k3, hk3⟩ : ∃ k3, k3 = k2.goto 0 (.hugeStore 0 16777216 v k2.s.c.cnt .ret) := ⟨_, rfl⟩
  rw [← hk3] at h3 o3
  have kq3 : k3.pc 0 = .hugeStore 0 16777216 v k2.s.c.cnt .ret := by rw [hk3]; rfl
  have h4 := h3.step (t := 0) (a := .free 0) (k' := (k3.setCnt (k2.s.c.cnt + 1)).goto 0 (.pad 0 16777216 v .ret))
    (fun h => by rw [kq3] at h; cases h) (by unfold step; rw [kq3]) (fun _ => solo o3)
  have o4 := others (.pad 0 16777216 v .ret) (k3.setCnt (k2.s.c.cnt + 1)) o3 rfl
  obtain ⟨k4, hk4⟩ : ∃ k4, k4 = (k3.setCnt (k2.s.c.cnt + 1)).goto 0 (.pad 0 16777216 v .ret) := ⟨_, rfl⟩
  rw [← hk4] at h4 o4
  have kq4 : k4.pc 0 = .pad 0 16777216 v .ret := by rw [hk4]; rfl
  have kc4 : k4.s.c.cnt = 1 := by
    rw [hk4]
    show k2.s.c.cnt + 1 = 1
    rw [ks2, c2, c0]
    rfl
  obtain ⟨k5, _, s5, p5, _, st5⟩ := pad_step h4.reach kq4 hv
  refine ⟨k5, h4.step (fun h => by rw [kq4] at h; cases h) st5 (fun _ => solo o4), fun t => ?_, by rw [s5]; exact kc4⟩
  rw [p5]
  split
  · rfl
  · exact o4 t (by assumption)

/-- Two threads own a block of 16 MB each: `C56_blocks_partial`, `C56_lookup_partial`. -/
example : ∃ k : KS Light, Reach Config.default 4194304 4194304 (fun _ => True) k ∧ (∀ t, k.pc t = .idle) ∧
    ∃ l ∈ k.live, ∃ l' ∈ k.live, l.ptr + l.len ≤ l'.ptr ∨ l'.ptr + l'.len ≤ l.ptr := by
  obtain ⟨k, h, hi, _, _, p, p', hl⟩ := C56_refuted_count (X := fun _ => True) trivial
  refine ⟨k, h, hi, ⟨p, 16777216, 0⟩, by rw [hl]; simp, ⟨p', 16777216, 0⟩, by rw [hl]; simp, ?_⟩
  have hd := (C56_blocks_partial h).1
  rw [hl] at hd
  obtain ⟨h1, h2⟩ := (List.pairwise_cons.1 hd).1 _ List.mem_cons_self
  by_contra hc
  rw [not_or, Nat.not_le, Nat.not_le] at hc
  simp only at hc h1
  rcases Nat.lt_or_gt_of_ne h1 with g | g
  · exact h2 p' ⟨⟨by simp only; omega, by simp only; omega⟩, ⟨by simp only; omega, by simp only; omega⟩⟩
  · exact h2 p ⟨⟨by simp only; omega, by simp only; omega⟩, ⟨by simp only; omega, by simp only; omega⟩⟩

/-- Both blocks are freed, by a third thread: `C56_free_ends_partial`, `C56_nothing_lost_partial`. -/
example : ∃ k : KS Light, Reach Config.default 4194304 4194304 CleanAct k ∧ (∀ t, k.pc t = .idle) ∧ k.live ≠ [] ∧
    ∃ k', Steps Config.default CleanAct k k' ∧ k'.live = [] ∧ k'.s.w.src.counter = 0 ∧ ∀ i, k'.s.w.regs.ent i = 0 := by
  obtain ⟨k, h, hi, _, _, p, p', hl⟩ := C56_refuted_count (X := CleanAct) (Or.inr (by decide))
  have hlock : ∀ {z : KS Light}, Reach Config.default 4194304 4194304 CleanAct z → (∀ t, z.pc t = .idle) → z.s.c.lock = false := by
    intro z hz hzi
    obtain ⟨_, hlk⟩ := hz.inv False False.elim
    cases e : z.s.c.lock with
    | false => rfl
    | true =>
      obtain ⟨v, hv⟩ := hlk.iff.1 e
      rw [hzi v] at hv
      cases hv
  have hd := (C56_blocks_partial h).1
  rw [hl] at hd
  obtain ⟨h1, _⟩ := (List.pairwise_cons.1 hd).1 _ List.mem_cons_self
  simp only at h1
  obtain ⟨k1, s1, i1, l1⟩ := C56_free_ends_partial (t := 2) (by decide) h (hi 2) (l := ⟨p, 16777216, 0⟩) (by rw [hl]; simp) trivial
    (hlock h hi)
  have hi1 : ∀ t, k1.pc t = .idle := fun t => by rw [i1 t]; exact hi t
  obtain ⟨k2, s2, i2, l2⟩ := C56_free_ends_partial (t := 2) (by decide) (h.steps s1) (hi1 2) (l := ⟨p', 16777216, 0⟩)
    ((l1 _).2 ⟨by rw [hl]; simp, fun h => h1 h.symm⟩) trivial (hlock (h.steps s1) hi1)
  have hemp : k2.live = [] := by
    rw [List.eq_nil_iff_forall_not_mem]
    intro l hl'
    obtain ⟨g1, g2⟩ := (l2 l).1 hl'
    obtain ⟨g3, g4⟩ := (l1 l).1 g1
    rw [hl] at g3
    simp at g3
    rcases g3 with rfl | rfl
    · exact g4 rfl
    · exact g2 rfl
  obtain ⟨n1, n2⟩ := C56_nothing_lost_partial ((h.steps s1).steps s2) (fun _ h => h) (fun t => by rw [i2 t]; exact hi1 t) hemp
  exact ⟨k, h, hi, by rw [hl]; simp, k2, s1.trans s2, hemp, n1, n2⟩

/-- A thread is in the critical section, another one waits for the lock: `C56_one_at_a_time`, `C56_progress_partial`, and
`C56_no_failure_partial` for both. -/
example : ∃ k : KS Light, Reach Config.default 4194304 4194304 (fun _ => True) k ∧ k.pc 0 = .crit (.alloc 0 100 .ret) ∧
    k.pc 1 = .load (.alloc 64 1000 .ret) ∧ StepMem k 0 ∧ StepMem k 1 := by
  obtain ⟨s, h0, c0, hs0, lk, src0, _⟩ := sample_start Config.default (fun _ => True)
  have h1 : isHuge s.c (withBound 0 100) = false := by unfold isHuge; rw [Bool.and_eq_false_iff]; exact Or.inr (by decide)
  have h2 : isHuge s.c (withBound 64 1000) = false := by unfold isHuge; rw [Bool.and_eq_false_iff]; exact Or.inr (by decide)
  obtain ⟨k0, hk0⟩ : ∃ k0 : KS Light, k0 = ⟨s, fun _ => .idle, [], fun _ => none⟩ := ⟨_, rfl⟩
  rw [← hk0] at h0
  have r1 := h0.step (k' := k0.goto 0 (.swap (.alloc 0 100 .ret))) (t := 0) (a := .alloc 0 100)
    (fun _ => ⟨⟨Or.inl (by omega), by unfold PSize; decide⟩, trivial⟩) (by
      rw [hk0]
      unfold step start KS.enter
      simp only
      rw [if_neg (by omega), h1, if_neg (by decide)])
  have r2 := r1.step (k' := (k0.setLock true).goto 0 (.crit (.alloc 0 100 .ret))) (t := 0) (a := .free 0) (fun h => by cases h) (by
      rw [hk0]
      show Outcome.ok ((KS.setLock (KS.goto _ _ _) _).goto 0 (if s.c.lock then _ else _)) = _
      rw [lk]
      refine congrArg Outcome.ok ?_
      unfold KS.goto KS.setLock
      simp only [Bool.false_eq_true, if_false]
      congr 1
      funext u
      split <;> rfl)
  have r3 := r2.step (k' := ((k0.setLock true).goto 0 (.crit (.alloc 0 100 .ret))).goto 1 (.swap (.alloc 64 1000 .ret))) (t := 1)
    (a := .alloc 64 1000) (fun _ => ⟨⟨Or.inr ⟨6, rfl⟩, by unfold PSize; decide⟩, trivial⟩) (by
      rw [hk0]
      unfold step start KS.enter
      show (if 1000 = 0 then _ else Outcome.ok (KS.goto _ _ (if isHuge s.c (withBound 64 1000) then _ else _))) = _
      rw [if_neg (by omega), h2, if_neg (by decide)])
  have r4 := r3.step (t := 1) (a := .free 0) (fun h => by cases h) (rfl : _ = Outcome.ok _)
  refine ⟨_, r4, rfl, ?_, ?_, ?_⟩
  · rw [hk0]; rfl
  · show Os.Fresh _ _ _
    show Os.Fresh k0.s.w.src.os (k0.s.w.src.os.ans k0.s.w.src.os.k) (reqSize 0 100 + 80 + MB2)
    rw [hk0]
    show Os.Fresh s.w.src.os (s.w.src.os.ans s.w.src.os.k) (reqSize 0 100 + 80 + MB2)
    rw [src0, show reqSize 0 100 = 100 by decide]
    have hpg : pageUp (100 + 80 + MB2) ≤ 4294967296 := by unfold pageUp; omega
    refine ⟨by omega, by decide, by decide, ?_, fun i hi => ?_⟩
    · show 1099511627776 + 0 * 4294967296 + _ ≤ _
      omega
    · show decide (1099511627776 + 0 * 4294967296 + i ≤ MB2 ∨
        (4194304 ≤ 1099511627776 + 0 * 4294967296 + i ∧ 1099511627776 + 0 * 4294967296 + i < 4194304 + 1536)) = false
      exact decide_eq_false (by omega)
  · trivial

end OnNode
end MpcAlloc
