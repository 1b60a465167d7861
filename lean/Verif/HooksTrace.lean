import Verif.HooksReach

/-
Histories of a chain over user buffers with the events they send, and an observer that rebuilds the table of the live blocks
from the events alone.
-/

namespace MpcAlloc.Hooks

variable {σ : Type}

/-- Boundary of a call. -/
def opBound : Op → Nat
  | .alloc b _ => b
  | .realloc _ b _ => b
  | _ => 0

theorem execH_er {H : Tab} {S : Source σ} {C : Config} {s s' : CS σ} {op : Op} {r : Nat} {e : List Ev}
    (hb : opBound op + 8 ≤ W64) (h : execH H S C s op = .ok (s', r, e)) : exec S C s op = .ok (s', r) := by
  cases op with
  | alloc b n => exact allocAlignH_er hb h
  | free p =>
    simp only [execH] at h
    obtain ⟨q, h1, h2⟩ := Outcome.bind_eq_ok h
    obtain ⟨t, e'⟩ := q
    rw [exec_free, chainFreeH_er h1]
    cases h2
    rfl
  | realloc p b n => exact chainReallocH_er hb h
  | refill b z =>
    simp only [execH] at h
    obtain ⟨q, h1, h2⟩ := Outcome.bind_eq_ok h
    rw [exec_refill, h1]
    cases h2
    rfl
  | write a v =>
    cases h
    rfl

/-- Histories with their events: the calls of `Reach`, and the events sent so far, the oldest first. The initialisation is
done before the client can set the hooks of the chain, it sends no event. -/
inductive TReach (H : Tab) (S : Source σ) (C : Config) (pb : Nat) : CS σ → List Block → List (Nat × Nat) → List Ev → Prop
  | init {w : World σ} {addr : Nat} {ts nm nr : Bool} {s : CS σ} : 0 < pb → pb + 1536 < W64 → w.regs.OK →
      userInit w addr pb 0 0 ts nm nr = .ok s → TReach H S C pb s [] [] []
  | step {s s' : CS σ} {L : List Block} {B : List (Nat × Nat)} {T e : List Ev} {op : Op} {r : Nat} : TReach H S C pb s L B T →
      ValidOp pb L B op → RegOK s op → execH H S C s op = .ok (s', r, e) →
      TReach H S C pb s' (account L op r) (accountBufs B op) (T ++ e)

/-- The observer: it knows the table of the live blocks, pointer and size. It refuses the event of an allocation that returns
a block already live, and the event of a free of a block that it does not know or with another size. -/
def see (t : List (Nat × Nat)) : Ev → Option (List (Nat × Nat))
  | .alloc _ _ p z _ => if t.any (fun x => x.1 == p) then none else some ((p, z) :: t)
  | .hugeAlloc _ _ p z _ => if t.any (fun x => x.1 == p) then none else some ((p, z) :: t)
  | .free _ p z => if t.contains (p, z) then some (t.filter (fun x => x.1 != p)) else none
  | .hugeFree _ p z => if t.contains (p, z) then some (t.filter (fun x => x.1 != p)) else none
  | _ => some t

/-- The observer over a list of events. -/
def observe (t : List (Nat × Nat)) : List Ev → Option (List (Nat × Nat))
  | [] => some t
  | e :: l => (see t e).bind fun t => observe t l

theorem observe_append (l l' : List Ev) (t : List (Nat × Nat)) :
    observe t (l ++ l') = (observe t l).bind fun t => observe t l' := by
  induction l generalizing t with
  | nil => rfl
  | cons e l ih =>
    simp only [List.cons_append, observe]
    cases see t e with
    | none => rfl
    | some t' => simp only [Option.bind_some]; exact ih t'

/-- What a call does and sends. -/
def OpEv (H : Tab) (addr pb : Nat) (nm : Bool) (A : AHeap) (op : Op) (r : Nat) (A' : AHeap) (e : List Ev) : Prop :=
  match op with
  | .alloc b n => AllocEv H addr pb A b n r A' e
  | .free p => (p = 0 ∧ A' = A ∧ e = []) ∨ ∃ c, A.Used c ∧ c.uptr = p ∧ FreeEv H addr pb nm A c A' e
  | .realloc p b n =>
    if p = 0 then AllocEv H addr pb A b n r A' e
    else if n = 0 then r = 0 ∧ ∃ c, A.Used c ∧ c.uptr = p ∧ FreeEv H addr pb nm A c A' e
    else ∃ c, A.Used c ∧ c.uptr = p ∧ ReallocEv (fun _ => True) H addr pb nm A c b n r A' e
  | .refill _ _ => e = [] ∧ ∀ x, A'.Used x ↔ A.Used x
  | .write _ _ => e = [] ∧ A' = A

theorem bound_ok {pb : Nat} {L : List Block} {B : List (Nat × Nat)} {op : Op} (hv : ValidOp pb L B op) :
    opBound op + 8 ≤ W64 := by
  have key : ∀ b n, SizeOK B b n → b + 8 ≤ W64 := by
    intro b n h
    unfold SizeOK at h
    by_cases hb : 1 < b
    · rw [if_pos hb] at h; omega
    · omega
  cases op with
  | alloc b n => exact key b n hv.2
  | realloc p b n => exact key b n hv.2.1
  | free p => simp [opBound]
  | refill b z => simp [opBound]
  | write a v => simp [opBound]

theorem chainReallocH_null (H : Tab) (S : Source σ) (C : Config) (b : Nat) (s : CS σ) (n : Nat) (hd : s.c.dead = false) :
    chainReallocH H S C b s 0 n = allocAlignH H S s b n := by
  unfold chainReallocH
  by_cases hn : n = 0
  · rw [if_pos (show 0 = 0 ∧ n = 0 from ⟨rfl, hn⟩)]
    unfold allocAlignH
    rw [if_neg (by rw [hd]; simp), if_pos hn]
  · rw [if_neg (show ¬ (0 = 0 ∧ n = 0) from fun h => hn h.2), if_pos (show 0 = 0 from rfl)]

theorem stepH {pb : Nat} {A : AHeap} {L : List Block} {B : List (Nat × Nat)} {op : Op} (H : Tab) (S : Source σ) (C : Config)
    (hf : C.reallocFactor ≠ 0) {s : CS σ} (I : HInv pb s L B A) (hv : ValidOp pb L B op) (hreg : RegOK s op) :
    ∃ s' r e A', execH H S C s op = .ok (s', r, e) ∧ HInv pb s' (account L op r) (accountBufs B op) A' ∧
      s'.c.noMerge = s.c.noMerge ∧ s'.c.addr = s.c.addr ∧ OpEv H s.c.addr pb s.c.noMerge A op r A' e := by
  cases op with
  | alloc b n =>
    obtain ⟨s', r, e, A', e1, _, I', nm, ad, hE⟩ := HInv.allocH H S I hv.1 hv.2
    exact ⟨s', r, e, A', e1, I', nm, ad, hE⟩
  | free p =>
    by_cases hp : p = 0
    · subst hp
      refine ⟨s, 0, [], A, ?_, ?_, rfl, rfl, Or.inl ⟨rfl, rfl, rfl⟩⟩
      · simp only [execH]
        unfold chainFreeH
        rw [if_neg (by simp [I.inv.dead]), if_pos rfl]
        rfl
      · have hL : account L (.free 0) 0 = L := by
          simp only [account]
          apply List.filter_eq_self.2
          intro l hl
          obtain ⟨c, hc, h1, _⟩ := I.live.used l hl
          have := I.wf.uptr_ge c
          have : l.ptr ≠ 0 := by omega
          simp [this]
        rw [hL]; exact I
    · obtain ⟨l, hl, rfl⟩ := hv.resolve_left hp
      obtain ⟨c, hc, h1, _⟩ := I.live.used l hl
      obtain ⟨s', e, A', e1, I', nm, ad, hE⟩ := HInv.freeH H S C I hc
      refine ⟨s', 0, e, A', ?_, by rw [← h1]; exact I', nm, ad, Or.inr ⟨c, hc, h1, hE⟩⟩
      simp only [execH]
      rw [← h1, e1]
      rfl
  | realloc p b n =>
    obtain ⟨hb, hsz, hp'⟩ := hv
    by_cases hp : p = 0
    · subst hp
      obtain ⟨s', r, e, A', e1, _, I', nm, ad, hE⟩ := HInv.allocH H S I hb hsz
      refine ⟨s', r, e, A', ?_, I', nm, ad, ?_⟩
      · show chainReallocH H S C b s 0 n = _
        rw [chainReallocH_null H S C b s n I.inv.dead]
        exact e1
      · unfold OpEv
        simp only
        rw [if_pos trivial]; exact hE
    · obtain ⟨l, hl, rfl, hcond⟩ := hp'.resolve_left hp
      by_cases hn : n = 0
      · subst hn
        obtain ⟨c, hc, h1, _⟩ := I.live.used l hl
        obtain ⟨s', e, A', e1, I', nm, ad, hE⟩ := HInv.freeH H S C I hc
        refine ⟨s', 0, e, A', ?_, ?_, nm, ad, ?_⟩
        · show chainReallocH H S C b s l.ptr 0 = _
          unfold chainReallocH
          rw [if_neg (fun h => hp h.1), if_neg hp, if_pos rfl, ← h1, e1]
          rfl
        · have : account L (.realloc l.ptr b 0) 0 = account L (.free c.uptr) 0 := by
            simp only [account, if_neg hp, if_pos, h1]
          rw [this]; exact I'
        · unfold OpEv
          simp only
          rw [if_neg hp, if_pos trivial]
          exact ⟨trivial, c, hc, h1, hE⟩
      · obtain ⟨c, hc, h1, s', r, e, A', e1, I', nm, ad, _, hE⟩ :=
          HInv.reallocH H S C hf I hl hb hsz hn (hcond.resolve_left hn)
        refine ⟨s', r, e, A', e1, I', nm, ad, ?_⟩
        unfold OpEv
        simp only
        rw [if_neg hp, if_neg hn]
        exact ⟨c, hc, h1, hE.imp id fun ⟨A1, e1, e2, _, h⟩ => ⟨A1, e1, e2, trivial, h⟩⟩
  | refill b sz =>
    have F := freshSeg_of I.bufs hv
    obtain ⟨A', R, hs⟩ := refill_ok (σ := σ) I.wf F
    obtain ⟨h', Rg, e1, M1, hR1, _, f1⟩ := hs s I.inv (fun h => ⟨I.regs, (hreg h).1, (hreg h).2⟩)
    refine ⟨refilled s h' Rg b sz, 0, [], A', ?_, ⟨R.wf, ⟨I.inv.pool, M1, I.inv.dead, I.inv.lock, ?_⟩, I.src, ?_,
      I.live.congr R.used, ?_, ?_, ?_⟩, rfl, rfl, rfl, R.used⟩
    · simp only [execH]
      rw [e1]
      rfl
    · intro hb
      simp only [refilled] at hb ⊢
      by_cases h0 : s.c.base = 0
      · rw [if_pos h0, if_pos h0]
        have : (b, sz) ∈ A'.shape := by rw [R.shape]; simp
        obtain ⟨g, hg, he⟩ := List.mem_map.1 this
        simp only [Prod.mk.injEq] at he
        exact ⟨g, hg, he.1, by rw [he.1, he.2]⟩
      · rw [if_neg h0, if_neg h0]
        obtain ⟨g, hg, g1, g2⟩ := I.inv.base h0
        have : (g.base, g.size) ∈ A'.shape := by
          rw [R.shape]; exact List.mem_append_left _ (List.mem_map.2 ⟨g, hg, rfl⟩)
        obtain ⟨g', hg', he⟩ := List.mem_map.1 this
        simp only [Prod.mk.injEq] at he
        exact ⟨g', hg', by rw [he.1]; exact g1, by rw [he.1, he.2]; exact g2⟩
    · simp only [accountBufs]
      rw [R.shape, I.bufs]
    · intro h; exact R.noAdj (I.noAdj h)
    · unfold RegDone at hR1
      cases hnr : s.c.noRegion with
      | true => rw [hnr, if_pos rfl] at hR1; simp only [refilled]; rw [hR1]; exact I.regs
      | false => rw [hnr, if_neg (by simp)] at hR1; exact hR1.1
    · intro _
      have := F.pos
      simp only [refilled]
      split <;> omega
  | write a v =>
    obtain ⟨l, hl, hx⟩ := hv
    refine ⟨_, _, _, A, rfl, I.sameBut ⟨rfl, rfl, ?_⟩, rfl, rfl, rfl, rfl⟩
    intro x hx2
    show (if x = a then v else s.w.mem x) = _
    rw [if_neg]
    rintro rfl
    have hu := I.live.mem I.wf hl hx
    rcases hx2 with h | h
    · exact (I.wf.user_quiet hu).1 h
    · exact h.2 l hl hx

/-- The table of the observer against the used chunks. -/
structure TabOK (A : AHeap) (t : List (Nat × Nat)) : Prop where
  nodup : (t.map Prod.fst).Nodup
  used : ∀ x ∈ t, ∃ c, A.Used c ∧ c.uptr = x.1 ∧ c.size = x.2
  all : ∀ c, A.Used c → (c.uptr, c.size) ∈ t

theorem observe_split (H : Tab) (a : Nat) (c d : Ck) (t : List (Nat × Nat)) : observe t (splitEv H a c d) = some t := by
  unfold splitEv emit
  split
  · split <;> rfl
  · rfl

theorem TabOK.alloc {H : Tab} {addr pb b n r : Nat} {A A' : AHeap} {e : List Ev} {t : List (Nat × Nat)} (hH : H.alloc = true)
    (T : TabOK A t) (E : AllocEv H addr pb A b n r A' e) : ∃ t', observe t e = some t' ∧ TabOK A' t' := by
  rcases E with ⟨_, rfl, rfl⟩ | ⟨c, d, G, rfl, hne, rfl⟩
  · exact ⟨t, rfl, T⟩
  have hnot : ∀ x ∈ t, x.1 ≠ d.uptr := by
    intro x hx he
    obtain ⟨c', hc', h1, _⟩ := T.used x hx
    have : c' = d := G.wf.uptr_inj ((G.used c').2 (Or.inl hc')).1 G.usedD.1 (by rw [h1, he])
    subst this
    exact G.fresh hc'
  refine ⟨(d.uptr, d.size) :: t, ?_, ?_, ?_, ?_⟩
  · rw [observe_append, observe_split, Option.bind_some]
    simp only [emit, hH, if_true, observe, see]
    rw [if_neg]
    · rfl
    · rw [List.any_eq_true]
      rintro ⟨x, hx, he⟩
      exact hnot x hx (by simpa using he)
  · rw [List.map_cons, List.nodup_cons]
    refine ⟨?_, T.nodup⟩
    intro h
    obtain ⟨x, hx, he⟩ := List.mem_map.1 h
    exact hnot x hx he
  · intro x hx
    rcases List.mem_cons.1 hx with rfl | hx
    · exact ⟨d, G.usedD, rfl, rfl⟩
    · obtain ⟨c', hc', h⟩ := T.used x hx
      exact ⟨c', (G.used c').2 (Or.inl hc'), h⟩
  · intro c' hc'
    rcases (G.used c').1 hc' with h | rfl
    · exact List.mem_cons_of_mem _ (T.all c' h)
    · exact List.mem_cons_self

theorem TabOK.free {H : Tab} {addr pb : Nat} {nm : Bool} {A A' : AHeap} {c : Ck} {e : List Ev} {t : List (Nat × Nat)}
    (hH : H.free = true) (W : A.WF pb) (T : TabOK A t) (hc : A.Used c) (E : FreeEv H addr pb nm A c A' e) :
    ∃ t', observe t e = some t' ∧ TabOK A' t' := by
  obtain ⟨R, m, _, _, _, _, _, rfl⟩ := E
  refine ⟨t.filter (fun x => x.1 != c.uptr), ?_, ?_, ?_, ?_⟩
  · unfold freeEv
    rw [observe_append]
    simp only [emit, hH, if_true, observe, see]
    rw [if_pos (by rw [List.contains_iff_mem]; exact T.all c hc), Option.bind_some, Option.bind_some]
    split
    · cases H.merge <;> rfl
    · rfl
  · exact T.nodup.sublist (List.Sublist.map _ List.filter_sublist)
  · intro x hx
    rw [List.mem_filter] at hx
    obtain ⟨d, hd, h1, h2⟩ := T.used x hx.1
    refine ⟨d, (R.used d).2 ⟨hd, ?_⟩, h1, h2⟩
    rintro rfl
    have := hx.2
    simp [h1] at this
  · intro d hd
    obtain ⟨hd, hne⟩ := (R.used d).1 hd
    rw [List.mem_filter]
    refine ⟨T.all d hd, ?_⟩
    simp only [bne_iff_ne, ne_eq]
    intro h
    exact hne (W.uptr_inj hd.1 hc.1 h)

theorem TabOK.op {H : Tab} {addr pb r : Nat} {nm : Bool} {A A' : AHeap} {op : Op} {e : List Ev} {t : List (Nat × Nat)}
    (hA : H.alloc = true) (hF : H.free = true) (W : A.WF pb) (T : TabOK A t) (E : OpEv H addr pb nm A op r A' e) :
    ∃ t', observe t e = some t' ∧ TabOK A' t' := by
  cases op with
  | alloc b n => exact T.alloc hA E
  | free p =>
    rcases E with ⟨_, rfl, rfl⟩ | ⟨c, hc, _, E⟩
    · exact ⟨t, rfl, T⟩
    · exact T.free hF W hc E
  | realloc p b n =>
    unfold OpEv at E
    simp only at E
    split at E
    · exact T.alloc hA E
    · split at E
      · obtain ⟨_, c, hc, _, E⟩ := E
        exact T.free hF W hc E
      · obtain ⟨c, hc, _, E⟩ := E
        rcases E with ⟨_, rfl, rfl⟩ | ⟨A1, e1, e2, _, _, E1, hc1, E2, rfl⟩
        · exact ⟨t, rfl, T⟩
        · obtain ⟨t1, o1, T1⟩ := T.alloc hA E1
          have W1 : A1.WF pb := by
            rcases E1 with ⟨_, rfl, _⟩ | ⟨_, _, G, _⟩
            · exact W
            · exact G.wf
          obtain ⟨t2, o2, T2⟩ := T1.free hF W1 hc1 E2
          exact ⟨t2, by rw [observe_append, o1]; exact o2, T2⟩
  | refill b z =>
    obtain ⟨rfl, hu⟩ := E
    refine ⟨t, rfl, T.nodup, ?_, ?_⟩
    · intro x hx
      obtain ⟨c, hc, h⟩ := T.used x hx
      exact ⟨c, (hu c).2 hc, h⟩
    · intro c hc
      exact T.all c ((hu c).1 hc)
  | write a v =>
    obtain ⟨rfl, rfl⟩ := E
    exact ⟨t, rfl, T⟩

/-- A history with events is a history. -/
theorem TReach.reach {H : Tab} {S : Source σ} {C : Config} {pb : Nat} {s : CS σ} {L : List Block} {B : List (Nat × Nat)}
    {T : List Ev} (h : TReach H S C pb s L B T) : Reach S C pb s L B := by
  induction h with
  | init h1 h2 h3 h4 => exact .init h1 h2 h3 h4
  | step _ hv hr e ih => exact ih.step hv hr (execH_er (bound_ok hv) e)

/-- Every history can be run with any hooks. -/
theorem Reach.trace (H : Tab) {S : Source σ} {C : Config} {pb : Nat} {s : CS σ} {L : List Block} {B : List (Nat × Nat)}
    (hf : C.reallocFactor ≠ 0) (h : Reach S C pb s L B) : ∃ T, TReach H S C pb s L B T := by
  induction h with
  | init h1 h2 h3 h4 => exact ⟨[], .init h1 h2 h3 h4⟩
  | step hR hv hr e ih =>
    obtain ⟨T, hT⟩ := ih
    obtain ⟨A, I⟩ := reach_inv hf hR
    obtain ⟨s', r', ev, A', e1, _⟩ := stepH H S C hf I hv hr
    have e2 := execH_er (bound_ok hv) e1
    rw [e] at e2
    cases e2
    exact ⟨_, hT.step hv hr e1⟩

theorem TReach.inv {H : Tab} {S : Source σ} {C : Config} {pb : Nat} {s : CS σ} {L : List Block} {B : List (Nat × Nat)}
    {T : List Ev} (hf : C.reallocFactor ≠ 0) (hA : H.alloc = true) (hF : H.free = true) (h : TReach H S C pb s L B T) :
    ∃ A t, HInv pb s L B A ∧ observe [] T = some t ∧ TabOK A t := by
  induction h with
  | init h1 h2 h3 h4 =>
    obtain ⟨s', e', I⟩ := init_inv (σ := σ) _ _ _ _ h1 h2 h3
    rw [e'] at h4
    cases h4
    refine ⟨_, [], I, rfl, by simp, by simp, ?_⟩
    intro c hc
    obtain ⟨l, hl, _⟩ := I.live.all c hc
    cases hl
  | step hT hv hr e ih =>
    obtain ⟨A, t, I, o, TO⟩ := ih
    obtain ⟨s', r', ev, A', e1, I', _, _, E⟩ := stepH H S C hf I hv hr
    rw [e] at e1
    cases e1
    obtain ⟨t', o', TO'⟩ := TO.op hA hF I.wf E
    exact ⟨A', t', I', by rw [observe_append, o]; exact o', TO'⟩

end MpcAlloc.Hooks
