import Verif.ConcReallocStep
import Verif.PropsConcurrent

/-
Property C72: concurrent calls of realloc on a thread safe chain without memory source.
-/

namespace MpcAlloc
namespace CR

variable {σ : Type} {S : Source σ} {C : Config} {pb : Nat} {B : List (Nat × Nat)} {s0 : CS σ} {L0 : List Block}
  {k : KS σ} {t u : Nat} {r r' r1 r2 r3 : RS σ}

/-- C72: no step of a thread that follows the rules fails, whatever the others do between the steps of a realloc; in
particular the areas of the copy do not overlap. -/
theorem C72_no_failure_partial (hf : C.reallocFactor ≠ 0) (h0 : MpcAlloc.Reach S C pb s0 L0 B)
    (hts : s0.c.threadSafe = true) (h : Reach S C B s0 L0 r) {a : Act} (hv : r.Idle t → Valid B r a) :
    ∃ r', rstep S C r t a = .ok r' := by
  obtain ⟨s, rs, L, A, H⟩ := reach_inv hf h0 hts h
  obtain ⟨r', e, _⟩ := H.step hf h0 hv
  exact ⟨r', e⟩

/-- C72: at every moment the blocks that the clients own, those that a realloc works with included, do not overlap and
hold what was stored in them. -/
theorem C72_blocks_partial (hf : C.reallocFactor ≠ 0) (h0 : MpcAlloc.Reach S C pb s0 L0 B)
    (hts : s0.c.threadSafe = true) (h : Reach S C B s0 L0 r) :
    (∀ l ∈ r.k.live, ∀ l' ∈ r.k.live, l ≠ l' → l.ptr ≠ l'.ptr ∧ l.Disj l') ∧
    ∀ l ∈ r.k.live, ∀ x, l.Byte x → ∀ v, r.k.data x = some v → r.k.s.w.mem x = v := by
  obtain ⟨s, rs, L, A, H⟩ := reach_inv hf h0 hts h
  exact ⟨fun l hl l' hl' hne => ⟨fun h => hne (H.ki.liveUnique hf h0 hl hl' h), H.ki.disj hf h0 hl hl' hne⟩, H.ki.data⟩

/-- C72: the calls that got the lock so far (an allocation and a free are two calls when a realloc moves its block, and the
bytes that it copies are stores between them), run one at a time in the order of the log, are valid, give every call that is
over the result it returned, and leave live every block that a client owns; once no thread is in a call the chain
cannot be told from the one left by the sequential run. -/
theorem C72_linearizable_partial (hf : C.reallocFactor ≠ 0) (h0 : MpcAlloc.Reach S C pb s0 L0 B)
    (hts : s0.c.threadSafe = true) (h : Reach S C B s0 L0 r) :
    ∃ s rs L, Run S C pb s0 L0 B r.k.log rs s L B ∧ (∀ i q, r.k.ret i = some q → rs[i]? = some q) ∧
      (∀ l ∈ r.k.live, l ∈ L) ∧
      ((∀ t, r.Idle t) → (∀ i, i < r.k.log.length → r.k.ret i ≠ none) ∧ (∀ l ∈ L, l ∈ r.k.live) ∧
        SameChain S C pb L B s r.k.s) := by
  obtain ⟨s, rs, L, A, H⟩ := reach_inv hf h0 hts h
  obtain ⟨s', rs', L', g1, g2, g3, g4⟩ := H.ki.linear hf h0
  exact ⟨s', rs', L', g1, g2, g3, fun hq => g4 (fun t => (hq t).2)⟩

/-! ### The result of a realloc -/

/-- Steps of all threads during which thread `t` stays in one call of realloc. -/
inductive During (S : Source σ) (C : Config) (B : List (Nat × Nat)) (t : Nat) : RS σ → RS σ → Prop
  | refl (r : RS σ) : During S C B t r r
  | step {r r' r'' : RS σ} {u : Nat} {a : Act} : During S C B t r r' → (r'.Idle u → Valid B r' a) →
      rstep S C r' u a = .ok r'' → r''.pc t ≠ .out → During S C B t r r''

theorem ite_ok {α : Type} {P : Prop} [Decidable P] {x y : Outcome α} {v : α} (h : (if P then x else y) = .ok v) :
    (P ∧ x = .ok v) ∨ (¬ P ∧ y = .ok v) := by
  by_cases hP : P
  · exact Or.inl ⟨hP, by rw [if_pos hP] at h; exact h⟩
  · exact Or.inr ⟨hP, by rw [if_neg hP] at h; exact h⟩

theorem rstep_other {a : Act} (e : rstep S C r t a = .ok r') (hu : u ≠ t) : r'.pc u = r.pc u ∧ r'.k.pc u = r.k.pc u := by
  have hg : ∀ (k : KS σ) (P : Pc), (r.goto k t P).pc u = r.pc u := fun k P => if_neg hu
  have hd : ∀ (k : KS σ) (q : Nat), (r.done k t q).pc u = r.pc u := fun k P => if_neg hu
  unfold rstep at e
  split at e
  · rcases ite_ok e with ⟨hc, e⟩ | ⟨hc, e⟩
    · unfold rstart at e
      split at e
      · obtain ⟨k, e1, e⟩ := Outcome.bind_eq_ok e
        cases e; exact ⟨hg _ _, kstep_other e1 hu⟩
      · rcases ite_ok e with ⟨hc, e⟩ | ⟨hc, e⟩
        · cases e; exact ⟨hd _ _, rfl⟩
        · rcases ite_ok e with ⟨hc, e⟩ | ⟨hc, e⟩
          · obtain ⟨k, e1, e⟩ := Outcome.bind_eq_ok e
            cases e; exact ⟨hg _ _, kstep_other e1 hu⟩
          · rcases ite_ok e with ⟨hc, e⟩ | ⟨hc, e⟩
            · obtain ⟨k, e1, e⟩ := Outcome.bind_eq_ok e
              cases e; exact ⟨hg _ _, kstep_other e1 hu⟩
            · cases e; exact ⟨hg _ _, rfl⟩
    · obtain ⟨k, e1, e⟩ := Outcome.bind_eq_ok e
      cases e; exact ⟨hg _ _, kstep_other e1 hu⟩
  · obtain ⟨v, _, e⟩ := Outcome.bind_eq_ok e
    rcases ite_ok e with ⟨hc, e⟩ | ⟨hc, e⟩
    · rcases ite_ok e with ⟨hc, e⟩ | ⟨hc, e⟩
      · cases e
      · cases e; exact ⟨hd _ _, rfl⟩
    · obtain ⟨w, _, e⟩ := Outcome.bind_eq_ok e
      rcases ite_ok e with ⟨hc, e⟩ | ⟨hc, e⟩
      · cases e
      · rcases ite_ok e with ⟨hc, e⟩ | ⟨hc, e⟩
        · cases e; exact ⟨hd _ _, rfl⟩
        · obtain ⟨k, e1, e⟩ := Outcome.bind_eq_ok e
          cases e; exact ⟨hg _ _, kstep_other e1 hu⟩
  · obtain ⟨k, e1, e⟩ := Outcome.bind_eq_ok e
    rcases ite_ok e with ⟨hc, e⟩ | ⟨hc, e⟩
    · rcases ite_ok e with ⟨hc, e⟩ | ⟨hc, e⟩
      · cases e
      · cases e; exact ⟨hg _ _, kstep_other e1 hu⟩
    · cases e; exact ⟨hg _ _, kstep_other e1 hu⟩
  · rcases ite_ok e with ⟨hc, e⟩ | ⟨hc, e⟩
    · obtain ⟨k, e1, e⟩ := Outcome.bind_eq_ok e
      cases e; exact ⟨hg _ _, kstep_other e1 hu⟩
    · obtain ⟨k, e1, e⟩ := Outcome.bind_eq_ok e
      cases e; exact ⟨hg _ _, kstep_other e1 hu⟩
  · obtain ⟨k, e1, e⟩ := Outcome.bind_eq_ok e
    rcases ite_ok e with ⟨hc, e⟩ | ⟨hc, e⟩
    · cases e; exact ⟨hd _ _, kstep_other e1 hu⟩
    · cases e; exact ⟨hg _ _, kstep_other e1 hu⟩

/-- A thread that stays in a realloc stays in the same call. -/
theorem rstep_call {a : Act} {c : Call} (hc : callOf (r.pc t) = some c) (e : rstep S C r u a = .ok r')
    (ho : r'.pc t ≠ .out) : callOf (r'.pc t) = some c := by
  by_cases hu : t = u
  · subst hu
    have hg : ∀ (k : KS σ) (P : Pc), (r.goto k t P).pc t = P := fun k P => if_pos rfl
    have hd : ∀ (k : KS σ) (q : Nat), (r.done k t q).pc t = .out := fun k P => if_pos rfl
    unfold rstep at e
    split at e
    · rename_i h; rw [h] at hc; cases hc
    · rename_i c' h
      rw [h] at hc; cases hc
      obtain ⟨v, _, e⟩ := Outcome.bind_eq_ok e
      rcases ite_ok e with ⟨hc, e⟩ | ⟨hc, e⟩
      · rcases ite_ok e with ⟨hc, e⟩ | ⟨hc, e⟩
        · cases e
        · cases e; exact absurd (hd _ _) ho
      · obtain ⟨w, _, e⟩ := Outcome.bind_eq_ok e
        rcases ite_ok e with ⟨hc, e⟩ | ⟨hc, e⟩
        · cases e
        · rcases ite_ok e with ⟨hc, e⟩ | ⟨hc, e⟩
          · cases e; exact absurd (hd _ _) ho
          · obtain ⟨k, e1, e⟩ := Outcome.bind_eq_ok e
            cases e; rw [hg]; rfl
    · rename_i c' old h
      rw [h] at hc; cases hc
      obtain ⟨k, e1, e⟩ := Outcome.bind_eq_ok e
      rcases ite_ok e with ⟨hc, e⟩ | ⟨hc, e⟩
      · rcases ite_ok e with ⟨hc, e⟩ | ⟨hc, e⟩
        · cases e
        · cases e; rw [hg]; rfl
      · cases e; rw [hg]; rfl
    · rename_i c' old q i h
      rw [h] at hc; cases hc
      rcases ite_ok e with ⟨hc, e⟩ | ⟨hc, e⟩
      · obtain ⟨k, e1, e⟩ := Outcome.bind_eq_ok e
        cases e; rw [hg]; rfl
      · obtain ⟨k, e1, e⟩ := Outcome.bind_eq_ok e
        cases e; rw [hg]; rfl
    · rename_i c' q h
      rw [h] at hc; cases hc
      obtain ⟨k, e1, e⟩ := Outcome.bind_eq_ok e
      rcases ite_ok e with ⟨hc, e⟩ | ⟨hc, e⟩
      · cases e; exact absurd (hd _ _) ho
      · cases e; rw [hg]; rfl
  · rw [(rstep_other e hu).1]; exact hc

theorem During.reach {r' : RS σ} (h : Reach S C B s0 L0 r) (d : During S C B t r r') : Reach S C B s0 L0 r' := by
  induction d with
  | refl => exact h
  | step _ hv e _ ih => exact ih.step hv e

theorem During.call {c : Call} {r' : RS σ} (d : During S C B t r r') (hc : callOf (r.pc t) = some c) :
    callOf (r'.pc t) = some c := by
  induction d with
  | refl => exact hc
  | step _ _ e ho ih => exact rstep_call ih e ho

theorem RInv.starts {s : CS σ} {rs : List Nat} {Ls : List Block} {A : AHeap} (H : RInv S C pb B s0 L0 r s rs Ls A)
    (hf : C.reallocFactor ≠ 0) (h0 : MpcAlloc.Reach S C pb s0 L0 B) (hi : r.Idle t) {b n : Nat} {l : Block}
    (hl : l ∈ r.k.live) (hn : n ≠ 0) (e1 : rstep S C r t (.realloc l.ptr b n) = .ok r1) :
    r1.pc t = .read ⟨l, b, n, fun i => r.k.s.w.mem (l.ptr + i)⟩ := by
  have hp0 := H.ki.livePos hl
  obtain ⟨g1, g2⟩ := blockAt_live hl rfl
  have hbl : blockAt r.k l.ptr = l := H.ki.liveUnique hf h0 g1 hl g2
  unfold rstep at e1
  rw [hi.1] at e1
  simp only at e1
  rw [if_pos (idleB_iff.2 hi.2)] at e1
  unfold rstart at e1
  simp only at e1
  rw [if_neg (by omega), if_neg hp0, if_neg hn] at e1
  cases e1
  show (if t = t then Pc.read (begin r.k l.ptr b n).2 else _) = _
  rw [if_pos rfl]
  show Pc.read (⟨blockAt r.k l.ptr, b, n, fun i => r.k.s.w.mem ((blockAt r.k l.ptr).ptr + i)⟩ : Call) = _
  rw [hbl]

/-- C72: thread `t` calls realloc for a block of a client, with a size that is not 0 (from `r` to `r1`); the steps of all
threads go on in any order while it is in the call (`r1` to `r2`) until it returns (`r3`). If it does not return NULL, it
returns a block of the new size that the client owns, and the bytes of the old block, as they were when the call began,
are in the new one as far as it goes. -/
theorem C72_result_partial (hf : C.reallocFactor ≠ 0) (h0 : MpcAlloc.Reach S C pb s0 L0 B)
    (hts : s0.c.threadSafe = true) (h : Reach S C B s0 L0 r) (hi : r.Idle t) {b n : Nat} {l : Block} (hl : l ∈ r.k.live)
    (hn : n ≠ 0) (hv : Valid B r (.realloc l.ptr b n)) (e1 : rstep S C r t (.realloc l.ptr b n) = .ok r1)
    (d : During S C B t r1 r2) {a : Act} (e2 : rstep S C r2 t a = .ok r3) (ho : r3.pc t = .out) :
    ∃ q, r3.last t = some q ∧ (q ≠ 0 → ∃ l' ∈ r3.k.live, l'.ptr = q ∧ l'.len = n ∧
      ∀ i, i < l.len → i < n → r3.k.s.w.mem (q + i) = r.k.s.w.mem (l.ptr + i)) := by
  obtain ⟨s, rs, L, A, H⟩ := reach_inv hf h0 hts h
  have hc : callOf (r1.pc t) = some ⟨l, b, n, fun i => r.k.s.w.mem (l.ptr + i)⟩ := by
    rw [H.starts hf h0 hi hl hn e1]; rfl
  have hc2 := d.call hc
  have R1 := h.step (fun _ => hv) e1
  obtain ⟨s2, rs2, L2, A2, H2⟩ := reach_inv hf h0 hts (d.reach R1)
  have hni : ¬ r2.Idle t := by
    rintro ⟨h, _⟩
    rw [h] at hc2; cases hc2
  obtain ⟨r3', e3, _, hres⟩ := H2.step (t := t) (a := a) hf h0 (fun h => absurd h hni)
  rw [e2] at e3
  cases e3
  exact hres _ hc2 ho

/-! ### The old block is given back -/

theorem rstep_log {a : Act} (e : rstep S C r t a = .ok r') : r.k.log <+: r'.k.log := by
  have hk : ∀ {a : KAct} {k : KS σ}, kstep S C r.k t a = .ok k → r.k.log <+: k.log := by
    intro a k e
    rcases kstep_log e with h | ⟨op, h⟩
    · exact h ▸ List.prefix_refl _
    · rw [h]; exact List.prefix_append _ _
  unfold rstep at e
  split at e
  · rcases ite_ok e with ⟨hc, e⟩ | ⟨hc, e⟩
    · unfold rstart at e
      split at e
      · obtain ⟨k, e1, e⟩ := Outcome.bind_eq_ok e
        cases e; exact hk e1
      · rcases ite_ok e with ⟨hc, e⟩ | ⟨hc, e⟩
        · cases e; exact List.prefix_append _ _
        · rcases ite_ok e with ⟨hc, e⟩ | ⟨hc, e⟩
          · obtain ⟨k, e1, e⟩ := Outcome.bind_eq_ok e
            cases e; exact hk e1
          · rcases ite_ok e with ⟨hc, e⟩ | ⟨hc, e⟩
            · obtain ⟨k, e1, e⟩ := Outcome.bind_eq_ok e
              cases e; exact hk e1
            · cases e; exact List.prefix_refl _
    · obtain ⟨k, e1, e⟩ := Outcome.bind_eq_ok e
      cases e; exact hk e1
  · obtain ⟨v, _, e⟩ := Outcome.bind_eq_ok e
    rcases ite_ok e with ⟨hc, e⟩ | ⟨hc, e⟩
    · rcases ite_ok e with ⟨hc, e⟩ | ⟨hc, e⟩
      · cases e
      · cases e; exact List.prefix_refl _
    · obtain ⟨w, _, e⟩ := Outcome.bind_eq_ok e
      rcases ite_ok e with ⟨hc, e⟩ | ⟨hc, e⟩
      · cases e
      · rcases ite_ok e with ⟨hc, e⟩ | ⟨hc, e⟩
        · cases e; exact List.prefix_append _ _
        · obtain ⟨k, e1, e⟩ := Outcome.bind_eq_ok e
          cases e; exact hk e1
  · obtain ⟨k, e1, e⟩ := Outcome.bind_eq_ok e
    rcases ite_ok e with ⟨hc, e⟩ | ⟨hc, e⟩
    · rcases ite_ok e with ⟨hc, e⟩ | ⟨hc, e⟩
      · cases e
      · cases e; exact hk e1
    · cases e; exact hk e1
  · rcases ite_ok e with ⟨hc, e⟩ | ⟨hc, e⟩
    · obtain ⟨k, e1, e⟩ := Outcome.bind_eq_ok e
      cases e; exact hk e1
    · obtain ⟨k, e1, e⟩ := Outcome.bind_eq_ok e
      cases e; exact hk e1
  · obtain ⟨k, e1, e⟩ := Outcome.bind_eq_ok e
    rcases ite_ok e with ⟨hc, e⟩ | ⟨hc, e⟩
    · cases e; exact hk e1
    · cases e; exact hk e1

/-- A call `op` got the lock (or needed none) when the log had at least `N` entries. -/
def Since (N : Nat) (log : List Op) (op : Op) : Prop := ∃ i, N ≤ i ∧ log[i]? = some op

theorem Since.mono {N : Nat} {log log' : List Op} {op : Op} (h : Since N log op) (hp : log <+: log') : Since N log' op := by
  obtain ⟨i, h1, h2⟩ := h
  obtain ⟨w, rfl⟩ := hp
  exact ⟨i, h1, by rw [List.getElem?_append_left (List.getElem?_eq_some_iff.1 h2).1]; exact h2⟩

theorem since_last {N : Nat} {log : List Op} {op : Op} (h : N ≤ log.length) : Since N (log ++ [op]) op :=
  ⟨log.length, h, by simp⟩

/-- In a free of `p`, which is in the log if it got the lock. -/
def Freeing (p N : Nat) (log : List Op) : KPc → Prop
  | .freeRead q => q = p
  | .freeSwap q _ => q = p
  | .freeLoad q _ => q = p
  | .freeCrit q _ => q = p
  | .freeUnlock _ => Since N log (.free p)
  | _ => False

theorem Freeing.mono {p N : Nat} {log log' : List Op} {P : KPc} (h : Freeing p N log P) (hp : log <+: log') :
    Freeing p N log' P := by
  cases P <;> first | exact h | exact Since.mono h hp

theorem Freeing.step {p N : Nat} {k k' : KS σ} {a : KAct} (h : Freeing p N k.log (k.pc t)) (hN : N ≤ k.log.length)
    (e : kstep S C k t a = .ok k') : (k'.pc t = .idle ∧ Since N k'.log (.free p)) ∨ Freeing p N k'.log (k'.pc t) := by
  unfold kstep at e
  cases hp : k.pc t <;> rw [hp] at e h <;> try exact absurd h id
  · simp only at e
    obtain ⟨v, _, e⟩ := Outcome.bind_eq_ok e
    rcases ite_ok e with ⟨_, e⟩ | ⟨_, e⟩
    · rcases ite_ok e with ⟨_, e⟩ | ⟨_, e⟩
      · cases e
      · cases e
        refine Or.inl ⟨goto_pc _ _ _, ?_⟩
        rw [← show _ = p from h]
        exact since_last hN
    · rcases ite_ok e with ⟨_, e⟩ | ⟨_, e⟩
      · cases e
      · cases e
        right
        rw [goto_pc]
        exact h
  · cases e
    right
    rw [goto_pc]
    split <;> exact h
  · cases e
    right
    rw [goto_pc]
    split <;> exact h
  · simp only at e
    obtain ⟨v, _, e⟩ := Outcome.bind_eq_ok e
    cases e
    right
    rw [goto_pc]
    show Since N (k.log ++ _) _
    rw [← show _ = p from h]
    exact since_last hN
  · cases e
    exact Or.inl ⟨goto_pc _ _ _, h⟩

/-- What the log says about a realloc that began when it had `N` entries. -/
structure Out (N : Nat) (r : RS σ) (t : Nat) : Prop where
  len : N ≤ r.k.log.length
  rel : ∀ c q, r.pc t = .release c q → Freeing c.l.ptr N r.k.log (r.k.pc t)

theorem Out.step {N : Nat} {a : Act} {c : Call} (H : Out N r t)
    (hid : ∀ c old q i, r.pc t = .copy c old q i → r.k.pc t = .idle ∧ c.l.ptr ≠ 0)
    (hc : callOf (r.pc t) = some c) (e : rstep S C r u a = .ok r') :
    Out N r' t ∧ (r'.pc t = .out → ∃ q, r'.last t = some q ∧
      (q ≠ 0 → (q = c.l.ptr ∧ Since N r'.k.log (.realloc c.l.ptr c.b c.n)) ∨ Since N r'.k.log (.free c.l.ptr))) := by
  have hlog := rstep_log e
  have hlen := Nat.le_trans H.len hlog.length_le
  by_cases hu : t = u
  · subst hu
    have hg : ∀ (k : KS σ) (P : Pc), (r.goto k t P).pc t = P := fun k P => if_pos rfl
    have hd : ∀ (k : KS σ) (q : Nat), (r.done k t q).pc t = .out := fun k P => if_pos rfl
    have hl : ∀ (k : KS σ) (q : Nat), (r.done k t q).last t = some q := fun k P => if_pos rfl
    unfold rstep at e
    cases hpc : r.pc t with
    | out => rw [hpc] at hc; cases hc
    | read c' =>
      rw [hpc] at hc e
      cases hc
      simp only at e
      obtain ⟨v, _, e⟩ := Outcome.bind_eq_ok e
      rcases ite_ok e with ⟨_, e⟩ | ⟨_, e⟩
      · rcases ite_ok e with ⟨_, e⟩ | ⟨_, e⟩
        · cases e
        · cases e
          exact ⟨⟨hlen, fun c q h => by rw [hd] at h; cases h⟩, fun _ => ⟨0, hl _ _, fun h => absurd rfl h⟩⟩
      · obtain ⟨w, _, e⟩ := Outcome.bind_eq_ok e
        rcases ite_ok e with ⟨_, e⟩ | ⟨_, e⟩
        · cases e
        · rcases ite_ok e with ⟨_, e⟩ | ⟨_, e⟩
          · cases e
            exact ⟨⟨hlen, fun c q h => by rw [hd] at h; cases h⟩,
              fun _ => ⟨_, hl _ _, fun _ => Or.inl ⟨rfl, since_last H.len⟩⟩⟩
          · obtain ⟨k, e1, e⟩ := Outcome.bind_eq_ok e
            cases e
            exact ⟨⟨hlen, fun c q h => by rw [hg] at h; cases h⟩, fun h => by rw [hg] at h; cases h⟩
    | alloc c' old =>
      rw [hpc] at hc e
      cases hc
      simp only at e
      obtain ⟨k, e1, e⟩ := Outcome.bind_eq_ok e
      rcases ite_ok e with ⟨_, e⟩ | ⟨_, e⟩
      · rcases ite_ok e with ⟨_, e⟩ | ⟨_, e⟩
        · cases e
        · cases e
          exact ⟨⟨hlen, fun c q h => by rw [hg] at h; cases h⟩, fun h => by rw [hg] at h; cases h⟩
      · cases e
        exact ⟨⟨hlen, fun c q h => by rw [hg] at h; cases h⟩, fun h => by rw [hg] at h; cases h⟩
    | copy c' old q i =>
      obtain ⟨x1, x2⟩ := hid _ _ _ _ hpc
      rw [hpc] at hc e
      cases hc
      simp only at e
      rcases ite_ok e with ⟨_, e⟩ | ⟨_, e⟩
      · obtain ⟨k, e1, e⟩ := Outcome.bind_eq_ok e
        cases e
        exact ⟨⟨hlen, fun c q h => by rw [hg] at h; cases h⟩, fun h => by rw [hg] at h; cases h⟩
      · obtain ⟨k, e1, e⟩ := Outcome.bind_eq_ok e
        cases e
        refine ⟨⟨hlen, fun c q h => ?_⟩, fun h => by rw [hg] at h; cases h⟩
        rw [hg] at h
        cases h
        unfold kstep at e1
        rw [x1] at e1
        unfold kstart at e1
        simp only at e1
        rw [if_neg x2] at e1
        cases e1
        show Freeing c.l.ptr N r.k.log (if t = t then .freeRead c.l.ptr else _)
        rw [if_pos rfl]
        exact rfl
    | release c' q =>
      have hr := H.rel _ _ hpc
      rw [hpc] at hc e
      cases hc
      simp only at e
      obtain ⟨k, e1, e⟩ := Outcome.bind_eq_ok e
      have hs := hr.step H.len e1
      rcases ite_ok e with ⟨h, e⟩ | ⟨h, e⟩
      · cases e
        refine ⟨⟨hlen, fun c q h => by rw [hd] at h; cases h⟩, fun _ => ⟨_, hl _ _, fun _ => Or.inr ?_⟩⟩
        rcases hs with hs | hs
        · exact hs.2
        · rw [idleB_iff.1 h] at hs; exact absurd hs id
      · cases e
        refine ⟨⟨hlen, fun c q h' => ?_⟩, fun h => by rw [hg] at h; cases h⟩
        rw [hg] at h'
        cases h'
        rcases hs with hs | hs
        · exact absurd (idleB_iff.2 hs.1) h
        · exact hs
  · obtain ⟨h1, h2⟩ := rstep_other e hu
    refine ⟨⟨hlen, fun c q h => ?_⟩, fun h => ?_⟩
    · rw [h2]
      exact (H.rel c q (h1 ▸ h)).mono hlog
    · rw [h1] at h
      rw [h] at hc
      cases hc

/-- C72: a realloc that does not return NULL has given the old block back, by a free of its own that is in the log since the
call began, or has kept it and is in the log as a realloc. -/
theorem C72_released_partial (hf : C.reallocFactor ≠ 0) (h0 : MpcAlloc.Reach S C pb s0 L0 B)
    (hts : s0.c.threadSafe = true) (h : Reach S C B s0 L0 r) (hi : r.Idle t) {b n : Nat} {l : Block} (hl : l ∈ r.k.live)
    (hn : n ≠ 0) (hv : Valid B r (.realloc l.ptr b n)) (e1 : rstep S C r t (.realloc l.ptr b n) = .ok r1)
    (d : During S C B t r1 r2) {a : Act} (e2 : rstep S C r2 t a = .ok r3) (ho : r3.pc t = .out) :
    ∃ q, r3.last t = some q ∧ (q ≠ 0 → (q = l.ptr ∧ Since r.k.log.length r3.k.log (.realloc l.ptr b n)) ∨
      Since r.k.log.length r3.k.log (.free l.ptr)) := by
  obtain ⟨s, rs, L, A, H⟩ := reach_inv hf h0 hts h
  have hc : callOf (r1.pc t) = some ⟨l, b, n, fun i => r.k.s.w.mem (l.ptr + i)⟩ := by
    rw [H.starts hf h0 hi hl hn e1]; rfl
  have R1 := h.step (fun _ => hv) e1
  have idle : ∀ {r : RS σ}, Reach S C B s0 L0 r →
      ∀ c old q i, r.pc t = .copy c old q i → r.k.pc t = .idle ∧ c.l.ptr ≠ 0 := by
    intro r hr c old q i hp
    obtain ⟨s, rs, L, A, H⟩ := reach_inv hf h0 hts hr
    have := H.pcs t
    rw [hp] at this
    exact ⟨this.1, H.ki.livePos this.2.1.live⟩
  have O1 : Out r.k.log.length r1 t := by
    refine ⟨(rstep_log e1).length_le, fun c q hp => ?_⟩
    rw [H.starts hf h0 hi hl hn e1] at hp
    cases hp
  have O2 : Out r.k.log.length r2 t ∧ Reach S C B s0 L0 r2 ∧ callOf (r2.pc t) = some ⟨l, b, n, fun i => r.k.s.w.mem (l.ptr + i)⟩ := by
    clear e2
    induction d with
    | refl => exact ⟨O1, R1, hc⟩
    | step _ hv e ho ih =>
      obtain ⟨g1, g2, g3⟩ := ih
      exact ⟨(g1.step (idle g2) g3 e).1, g2.step hv e, rstep_call g3 e ho⟩
  obtain ⟨g1, g2, g3⟩ := O2
  exact (g1.step (idle g2) g3 e2).2 ho

/-- C72: a realloc without block is an allocation, and a realloc to size 0 is a free, step for step; without both it returns
NULL. -/
theorem C72_null_zero (hi : r.Idle t) {p b n : Nat} :
    (n ≠ 0 → rstep S C r t (.realloc 0 b n) = rstep S C r t (.plain (.alloc b n))) ∧
    (p ≠ 0 → rstep S C r t (.realloc p b 0) = rstep S C r t (.plain (.free p))) ∧
    ∃ r', rstep S C r t (.realloc 0 b 0) = .ok r' ∧ r'.last t = some 0 ∧ r'.Idle t ∧ r'.k.live = r.k.live ∧
      r'.k.s = r.k.s := by
  have hs : ∀ a, rstep S C r t a = rstart S C r t a := by
    intro a
    unfold rstep
    rw [hi.1]
    simp only
    rw [if_pos (idleB_iff.2 hi.2)]
  refine ⟨fun hn => ?_, fun hp => ?_, ?_⟩
  · rw [hs, hs]
    unfold rstart
    simp only
    rw [if_neg (by omega), if_true]
  · rw [hs, hs]
    unfold rstart
    simp only
    rw [if_neg (by omega), if_neg hp, if_true]
  · refine ⟨_, (hs _).trans rfl, if_pos rfl, ⟨if_pos rfl, hi.2⟩, rfl, rfl⟩

/-! ### Progress -/

/-- Steps that the threads make from a state. -/
inductive Steps (S : Source σ) (C : Config) (B : List (Nat × Nat)) : RS σ → RS σ → Prop
  | refl (r : RS σ) : Steps S C B r r
  | step {r r' r'' : RS σ} {t : Nat} {a : Act} : (r.Idle t → Valid B r a) → rstep S C r t a = .ok r' →
      Steps S C B r' r'' → Steps S C B r r''

theorem Steps.trans {r r' r'' : RS σ} (h : Steps S C B r r') (h' : Steps S C B r' r'') : Steps S C B r r'' := by
  induction h with
  | refl => exact h'
  | step hv e _ ih => exact .step hv e (ih h')

theorem Reach.steps {r r' : RS σ} (h : Reach S C B s0 L0 r) (h' : Steps S C B r r') : Reach S C B s0 L0 r' := by
  induction h' with
  | refl => exact h
  | step hv e _ ih => exact ih (h.step hv e)

/-- Number of steps to the end of a call, at most, when the lock is free or held by the thread. -/
def rleft (P : KPc) : Pc → Nat
  | .out => kleft P
  | .read c => c.n + 20
  | .alloc c _ => kleft P + c.n + 7
  | .copy c _ _ i => c.n - i + 6
  | .release _ _ => kleft P + 1

theorem kleft_start {a : KAct} {k k' : KS σ} (hi : k.pc t = .idle) (e : kstep S C k t a = .ok k') : kleft (k'.pc t) ≤ 4 := by
  unfold kstep at e
  rw [hi] at e
  unfold kstart at e
  cases a with
  | alloc b n =>
    simp only at e
    split at e <;> cases e
    · show kleft (k.pc t) ≤ 4
      rw [hi]; exact Nat.zero_le _
    · rw [goto_pc]; exact Nat.le_refl _
  | free p =>
    simp only at e
    split at e <;> cases e
    · show kleft (k.pc t) ≤ 4
      rw [hi]; exact Nat.zero_le _
    · rw [goto_pc]; exact Nat.le_refl _
  | write x v =>
    cases e
    show kleft (k.pc t) ≤ 4
    rw [hi]; exact Nat.zero_le _

/-- A step of a thread in a call brings it nearer to the end. -/
theorem RInv.nearer {s : CS σ} {rs : List Nat} {Ls : List Block} {A : AHeap} (H : RInv S C pb B s0 L0 r s rs Ls A)
    {a : Act} (e : rstep S C r t a = .ok r') (hn : ¬ r.Idle t)
    (hl : r.k.s.c.lock = false ∨ holdsOf (r.k.pc t) = true) : rleft (r'.k.pc t) (r'.pc t) < rleft (r.k.pc t) (r.pc t) := by
  have hg : ∀ (k : KS σ) (P : Pc), (r.goto k t P).pc t = P := fun k P => if_pos rfl
  have hd : ∀ (k : KS σ) (q : Nat), (r.done k t q).pc t = .out := fun k P => if_pos rfl
  have hP := H.pcs t
  unfold rstep at e
  cases hpc : r.pc t with
  | out =>
    have hi : r.k.pc t ≠ .idle := fun h => hn ⟨hpc, h⟩
    rw [hpc] at e
    simp only at e
    rw [if_neg (by rw [idleB_iff]; exact hi)] at e
    obtain ⟨k, e1, e⟩ := Outcome.bind_eq_ok e
    cases e
    rw [hg]
    exact (kstep_pc e1 hi hl).1
  | read c =>
    rw [hpc] at e hP
    obtain ⟨hi, ho⟩ := hP
    simp only at e
    obtain ⟨v, _, e⟩ := Outcome.bind_eq_ok e
    rcases ite_ok e with ⟨hc, e⟩ | ⟨hc, e⟩
    · rcases ite_ok e with ⟨hc, e⟩ | ⟨hc, e⟩
      · cases e
      · cases e
        rw [hd]
        show kleft (r.k.pc t) < c.n + 20
        rw [hi]; simp only [kleft]; omega
    · obtain ⟨w, _, e⟩ := Outcome.bind_eq_ok e
      rcases ite_ok e with ⟨hc, e⟩ | ⟨hc, e⟩
      · cases e
      · rcases ite_ok e with ⟨hc, e⟩ | ⟨hc, e⟩
        · cases e
          rw [hd]
          show kleft (r.k.pc t) < c.n + 20
          rw [hi]; simp only [kleft]; omega
        · obtain ⟨k, e1, e⟩ := Outcome.bind_eq_ok e
          cases e
          rw [hg]
          have := kleft_start hi e1
          show kleft (k.pc t) + c.n + 7 < c.n + 20
          omega
  | alloc c old =>
    rw [hpc] at e hP
    simp only at e
    obtain ⟨k, e1, e⟩ := Outcome.bind_eq_ok e
    have := (kstep_pc e1 hP.1.busy hl).1
    rcases ite_ok e with ⟨hc, e⟩ | ⟨hc, e⟩
    · rcases ite_ok e with ⟨hc, e⟩ | ⟨hc, e⟩
      · cases e
      · cases e
        rw [hg]
        show c.n - 0 + 6 < kleft (r.k.pc t) + c.n + 7
        omega
    · cases e
      rw [hg]
      show kleft (k.pc t) + c.n + 7 < kleft (r.k.pc t) + c.n + 7
      omega
  | copy c old q i =>
    rw [hpc] at e hP
    simp only at e
    rcases ite_ok e with ⟨hc, e⟩ | ⟨hc, e⟩
    · obtain ⟨k, e1, e⟩ := Outcome.bind_eq_ok e
      cases e
      rw [hg]
      show c.n - (i + 1) + 6 < c.n - i + 6
      have := hc.2
      split at this <;> omega
    · obtain ⟨k, e1, e⟩ := Outcome.bind_eq_ok e
      cases e
      rw [hg]
      have := kleft_start hP.1 e1
      show kleft (k.pc t) + 1 < c.n - i + 6
      omega
  | release c q =>
    rw [hpc] at e hP
    simp only at e
    obtain ⟨k, e1, e⟩ := Outcome.bind_eq_ok e
    have := (kstep_pc e1 hP.1.busy hl).1
    rcases ite_ok e with ⟨hc, e⟩ | ⟨hc, e⟩
    · cases e
      rw [hd]
      show kleft (k.pc t) < kleft (r.k.pc t) + 1
      omega
    · cases e
      rw [hg]
      show kleft (k.pc t) + 1 < kleft (r.k.pc t) + 1
      omega

/-- A thread that runs alone while nobody else has the lock finishes its call. -/
theorem rfinish (hf : C.reallocFactor ≠ 0) (h0 : MpcAlloc.Reach S C pb s0 L0 B) (hts : s0.c.threadSafe = true) (t : Nat)
    (N : Nat) : ∀ {r : RS σ}, Reach S C B s0 L0 r → rleft (r.k.pc t) (r.pc t) ≤ N →
      (∀ u, holdsOf (r.k.pc u) = true → u = t) →
      ∃ r', Steps S C B r r' ∧ r'.Idle t ∧ ∀ u, u ≠ t → r'.pc u = r.pc u ∧ r'.k.pc u = r.k.pc u := by
  induction N with
  | zero =>
    intro r _ hN _
    refine ⟨r, .refl r, ?_, fun _ _ => ⟨rfl, rfl⟩⟩
    cases h : r.pc t with
    | out =>
      refine ⟨h, ?_⟩
      rw [h] at hN
      simp only [rleft] at hN
      cases h' : r.k.pc t <;> rw [h'] at hN <;> first | rfl | (simp [kleft] at hN)
    | _ => rw [h] at hN; simp only [rleft] at hN; omega
  | succ N ih =>
    intro r hr hN hown
    by_cases hi : r.Idle t
    · exact ⟨r, .refl r, hi, fun _ _ => ⟨rfl, rfl⟩⟩
    obtain ⟨s, rs, L, A, H⟩ := reach_inv hf h0 hts hr
    have hl : r.k.s.c.lock = false ∨ holdsOf (r.k.pc t) = true := by
      cases hlk : r.k.s.c.lock with
      | false => exact Or.inl rfl
      | true =>
        obtain ⟨u, hu⟩ := H.ki.lock.iff.1 hlk
        rw [hown u hu] at hu
        exact Or.inr hu
    have hv : r.Idle t → Valid B r (.plain (.free 0)) := fun h => absurd h hi
    obtain ⟨r1, e1, _⟩ := H.step hf h0 hv
    have hlt := H.nearer e1 hi hl
    have hown1 : ∀ u, holdsOf (r1.k.pc u) = true → u = t := by
      intro u hu
      by_contra hne
      rw [(rstep_other e1 hne).2] at hu
      exact hne (hown u hu)
    obtain ⟨r2, s2, q1, q2⟩ := ih (hr.step hv e1) (by omega) hown1
    refine ⟨r2, .step hv e1 s2, q1, fun u hu => ?_⟩
    rw [(q2 u hu).1, (q2 u hu).2]
    exact rstep_other e1 hu

/-- C72: no thread is stuck. Whatever state the threads have reached, there are steps of the thread that has the lock,
if there is one, then of any thread we choose, after which that thread is out of its call. -/
theorem C72_progress (hf : C.reallocFactor ≠ 0) (h0 : MpcAlloc.Reach S C pb s0 L0 B)
    (hts : s0.c.threadSafe = true) (h : Reach S C B s0 L0 r) (t : Nat) :
    ∃ r', Steps S C B r r' ∧ r'.Idle t := by
  obtain ⟨s, rs, L, A, H⟩ := reach_inv hf h0 hts h
  by_cases hlk : ∃ u, holdsOf (r.k.pc u) = true
  · obtain ⟨u, hu⟩ := hlk
    obtain ⟨r1, s1, g1, g2⟩ := rfinish hf h0 hts u _ h (Nat.le_refl _) (fun w hw => H.ki.lock.one w u hw hu)
    have hno : ∀ w, holdsOf (r1.k.pc w) ≠ true := by
      intro w hw
      by_cases hwu : w = u
      · rw [hwu, g1.2] at hw; cases hw
      · rw [(g2 w hwu).2] at hw
        exact hwu (H.ki.lock.one w u hw hu)
    obtain ⟨r2, s2, g3, _⟩ := rfinish hf h0 hts t _ (h.steps s1) (Nat.le_refl _) (fun w hw => absurd hw (hno w))
    exact ⟨r2, s1.trans s2, g3⟩
  · obtain ⟨r1, s1, g1, _⟩ := rfinish hf h0 hts t _ h (Nat.le_refl _) (fun w hw => absurd ⟨w, hw⟩ hlk)
    exact ⟨r1, s1, g1⟩

/-! ### The hypotheses can be met -/

/-- Histories without realloc. -/
theorem of_kreach {k : KS σ} (h : KReach S C B s0 L0 k) : Reach S C B s0 L0 ⟨k, fun _ => .out, fun _ => none⟩ := by
  induction h with
  | init => exact .init
  | step h hv e ih =>
    rename_i k k' t a
    have hno : ∀ (k : KS σ) p, Unheld (⟨k, fun _ => .out, fun _ => none⟩ : RS σ) p := fun _ p u => by simp [held]
    have eg : (⟨k, fun _ => .out, fun _ => none⟩ : RS σ).goto k' t .out = ⟨k', fun _ => .out, fun _ => none⟩ := by
      unfold RS.goto
      simp
    by_cases hi : k.pc t = .idle
    · refine ih.step (t := t) (a := .plain a) ?_ ?_
      · intro _
        have := hv hi
        cases a with
        | alloc b n => exact this
        | free p => exact this.imp_right (fun ⟨l, h1, h2⟩ => ⟨l, h1, h2, hno _ _⟩)
        | write x v => obtain ⟨l, h1, h2⟩ := this; exact ⟨l, h1, h2, hno _ _⟩
      · unfold rstep
        simp only
        rw [if_pos (idleB_iff.2 hi)]
        unfold rstart
        simp only
        rw [e, Outcome.ok_bind, Outcome.pure_eq, eg]
    · refine ih.step (t := t) (a := .plain a) (fun h => absurd h.2 hi) ?_
      unfold rstep
      simp only
      rw [if_neg (by rw [idleB_iff]; exact hi)]
      have e' : kstep S C k t (.free 0) = .ok k' := by
        rw [← e]
        unfold kstep
        split
        · rename_i h; exact absurd h hi
        all_goals rfl
      rw [e', Outcome.ok_bind, Outcome.pure_eq, eg]

/-- Thread 0 is in a realloc of its block of 100 bytes to 300 bytes, thread 1 has the lock. -/
theorem realloc_runs : ∃ (s : CS Unit) (r : RS Unit) (c : Call),
    MpcAlloc.Reach S0 Config.default 4096 s [] [(8192, 4096)] ∧ s.c.threadSafe = true ∧
    Reach S0 Config.default [(8192, 4096)] s [] r ∧
    r.pc 0 = .read c ∧ c.l.len = 100 ∧ c.n = 300 ∧ r.k.pc 1 = .allocCrit 0 40 := by
  obtain ⟨s, p, k, R, hts, K, hp, hlock, hidle, hlive, _⟩ := thread_block
  have hb0 : GoodBound 0 := Or.inl (by omega)
  have hbuf : ∀ n, n ≤ 300 → SizeOK [(8192, 4096)] 0 n := fun n _ => Or.inl (by split <;> omega)
  have R0 := of_kreach K
  have hmem : (⟨p, 100, true⟩ : Block) ∈ k.live := by rw [hlive]; exact List.mem_cons_self
  have R1 := R0.step (t := 0) (a := .realloc p 0 300)
    (fun _ => ⟨hb0, hbuf 300 (by omega), Or.inr ⟨_, hmem, rfl, fun u => by simp [held], Or.inr (Or.inl rfl)⟩⟩) (by
      unfold rstep
      simp only
      rw [if_pos (idleB_iff.2 (hidle 0))]
      unfold rstart
      simp only
      rw [if_neg (by omega), if_neg hp, if_neg (by omega)])
  have R2 := R1.step (t := 1) (a := .plain (.alloc 0 40)) (fun _ => ⟨hb0, hbuf 40 (by omega)⟩)
    (r' := RS.goto _ ((begin k p 0 300).1.goto 1 (.allocSwap 0 40)) 1 .out) (by
      have hi : (begin k p 0 300).1.pc 1 = .idle := hidle 1
      unfold rstep
      show (if idleB ((begin k p 0 300).1.pc 1) then _ else _) = _
      rw [if_pos (idleB_iff.2 hi)]
      unfold rstart
      simp only
      have : kstep S0 Config.default (begin k p 0 300).1 1 (.alloc 0 40) =
          .ok ((begin k p 0 300).1.goto 1 (.allocSwap 0 40)) := by
        unfold kstep
        rw [hi]
        rfl
      show (kstep S0 Config.default (begin k p 0 300).1 1 (.alloc 0 40) >>= fun k' => _) = _
      rw [this]
      rfl)
  have R3 := R2.step (t := 1) (a := .plain (.free 0)) (fun h => by have := h.2; cases this)
    (r' := RS.goto _ ((((begin k p 0 300).1.goto 1 (.allocSwap 0 40)).setLock true).goto 1 (.allocCrit 0 40)) 1 .out) (by
      have hl : ((begin k p 0 300).1.goto 1 (.allocSwap 0 40)).s.c.lock = false := hlock
      have : kstep S0 Config.default ((begin k p 0 300).1.goto 1 (.allocSwap 0 40)) 1 (.free 0) =
          .ok ((((begin k p 0 300).1.goto 1 (.allocSwap 0 40)).setLock true).goto 1 (.allocCrit 0 40)) := by
        unfold kstep
        rw [goto_pc]
        simp only
        rw [hl]
        rfl
      show (kstep S0 Config.default ((begin k p 0 300).1.goto 1 (.allocSwap 0 40)) 1 (.free 0) >>= fun k' => _) = _
      rw [this]
      rfl)
  have hbl : (begin k p 0 300).2.l = ⟨p, 100, true⟩ := by
    show blockAt k p = _
    unfold blockAt
    rw [hlive]
    simp
  exact ⟨s, _, (begin k p 0 300).2, R, hts, R3, rfl, by rw [hbl], rfl, rfl⟩

/-- The realloc of the state above comes to its end. -/
example : ∃ (s : CS Unit) (r r' : RS Unit) (c : Call), Reach S0 Config.default [(8192, 4096)] s [] r ∧ r.pc 0 = .read c ∧
    Steps S0 Config.default [(8192, 4096)] r r' ∧ r'.Idle 0 := by
  obtain ⟨s, r, c, R, hts, hr, hpc, _⟩ := realloc_runs
  obtain ⟨r', h1, h2⟩ := C72_progress default_factor R hts hr 0
  exact ⟨s, r, r', c, hr, hpc, h1, h2⟩

end CR
end MpcAlloc
