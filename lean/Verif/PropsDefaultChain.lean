import Verif.DefaultStep
import Verif.PropsEgg

/-
Properties of threads that switch between the chains with `sctk_alloc_posix_set_default_chain` (C71).
-/

namespace MpcAlloc

/-- Address of the structure of a chain. -/
def Cur.addrIn (e : ES) : Cur → Option Nat
  | .none => Option.none
  | .egg => some e.egg.addr
  | .ch i => e.p.chs[i]?.map Chain.addr

/-- **C71** (partial: build without hwloc, calls one at a time, chains made by the allocator; growing a block with a boundary
on its own chain is excluded, see C14; on the egg chain requests may get NULL, see `C71_egg_refuted`). Whatever chains the
threads were switched to, every call of every thread does what it has to as long as there is memory: a block with the
alignment asked for, zeroed or with the contents of the old one; no byte of any live block changes. -/
theorem C71_calls_partial {C : Config} {s : SwState} {G : SwSpec} {op : SwOp} (hf : C.reallocFactor ≠ 0) (h : SwReach C s G)
    (hv : SwValid s G op) (hm : SwMem s op) : ∃ s' r, swExec C s op = .ok (s', r) ∧ SwOk s G op s' r := by
  obtain ⟨a, buf, Ω, A, Lb, I, hc⟩ := h.inv hf
  rcases I.swStep hf hc hv with ⟨h1, _⟩ | ⟨s', r, _, _, _, e1, _, k, _⟩
  · exact absurd hm h1
  · exact ⟨s', r, e1, k⟩

/-- A step that goes through does what it has to, whatever memory there is. -/
theorem C71_returns {C : Config} {s s' : SwState} {G : SwSpec} {op : SwOp} {r : Nat} (hf : C.reallocFactor ≠ 0) (h : SwReach C s G)
    (hv : SwValid s G op) (ex : swExec C s op = .ok (s', r)) : SwOk s G op s' r := by
  obtain ⟨a, buf, Ω, A, Lb, I, hc⟩ := h.inv hf
  rcases I.swStep hf hc hv with ⟨_, e1⟩ | ⟨s2, r2, _, _, _, e1, _, k, _⟩
  · rw [ex] at e1; cases e1
  · rw [ex] at e1
    obtain ⟨rfl, rfl⟩ := Prod.mk.inj (Outcome.ok.inj e1)
    exact k

/-- **C71**. The blocks of all the chains, those of the egg chain, those that wait in a queue and the structures of the
chains do not overlap. -/
theorem C71_disjoint {C : Config} {s : SwState} {G : SwSpec} (hf : C.reallocFactor ≠ 0) (h : SwReach C s G) :
    (G.P.live ++ G.P.pend).Pairwise PBlock.Disj ∧
    G.E.Pairwise (fun l m => l.ptr ≠ m.ptr ∧ l.Disj m) ∧
    (∀ l ∈ G.P.live ++ G.P.pend, ∀ m ∈ G.E, ∀ x, ¬ (l.Byte x ∧ m.Byte x)) ∧
    (∀ c ∈ s.e.p.chs, ∀ l ∈ G.P.live ++ G.P.pend, ∀ x, ¬ (c.Byte x ∧ l.Byte x)) ∧
    (∀ c ∈ s.e.p.chs, ∀ m ∈ G.E, ∀ x, ¬ (c.Byte x ∧ m.Byte x)) ∧
    s.e.p.chs.Pairwise (fun c c' => ∀ x, ¬ (c.Byte x ∧ c'.Byte x)) := by
  obtain ⟨a, buf, Ω, A, Lb, I, hc⟩ := h.inv hf
  obtain ⟨h1, h2, h3⟩ := I.ei.structures
  refine ⟨h3, ?_, ?_, h2, ?_, h1⟩
  · have hn := List.pairwise_map.1 ((I.sub.map Block.ptr).nodup I.ei.h.live.nodup)
    refine hn.imp_of_mem ?_
    exact fun hl hm hne => ⟨hne, fun x hx => I.disjE hl hm hne hx.1 hx.2⟩
  · intro l hl m hm x hx
    have r1 := I.rangeP hl
    have r2 := I.rangeE hm
    unfold PBlock.Byte Block.Byte at hx
    omega
  · intro c hcm m hm x hx
    obtain ⟨H, L, D, B, _⟩ := I.ei.p
    have : c.addr ∈ Ω.ths.map Prod.fst := by
      have := B.env.addrs
      exact this ▸ List.mem_map_of_mem hcm
    obtain ⟨t, ht, e1⟩ := List.mem_map.1 this
    have := ((I.ei.mine x).1 (I.mineE hm hx.2)).2 t ht
    unfold Chain.Byte at hx
    unfold CHAIN_SIZE at this
    omega

/-- **C71**. The search of `sctk_free` and `sctk_realloc` finds, for every live block, a bloc that is marked with the address
of the chain that gave the block. -/
theorem C71_owner {C : Config} {s : SwState} {G : SwSpec} {p n : Nat} {pl : Bool} {o : Cur} (hf : C.reallocFactor ≠ 0)
    (h : SwReach C s G) (hl : G.Live p n pl o) :
    ∃ R b, regionGetMacroBloc s.e.p.w.mem s.e.p.w.regs p = .ok (R, b) ∧ b ≠ 0 ∧
      o.addrIn s.e = some (readLE s.e.p.w.mem (b + 16) 8) := by
  obtain ⟨a, buf, Ω, A, Lb, I, hc⟩ := h.inv hf
  cases hl with
  | ch hl =>
    obtain ⟨R, b, c, e1, hb, e2, _, hc2, _⟩ := I.lookupP hl
    refine ⟨R, b, e1, hb, ?_⟩
    unfold Cur.addrIn
    simp only
    rw [hc2, e2]
    rfl
  | egg hl =>
    obtain ⟨R, e1, _⟩ := I.lookupE hl
    have := I.low
    refine ⟨R, buf, e1, by omega, ?_⟩
    unfold Cur.addrIn
    simp only
    rw [I.own, I.addr]

/-- The block obtained by a request through chain `k` is one of that chain. -/
theorem C71_new {G : SwSpec} {k : Cur} {c : SwCall} {b n r : Nat} (hr : r ≠ 0) (hk : k ≠ .none) (hq : c.req = some (b, n))
    (hp : ∀ p h z, c = .realloc p h z → p = 0) : (G.after k c r).Live r n (decide (b ≤ 1)) k := by
  have key : ∀ G : SwSpec, (G.add k r n (decide (b ≤ 1))).Live r n (decide (b ≤ 1)) k := by
    intro G
    unfold SwSpec.add
    cases k with
    | none => exact absurd rfl hk
    | egg =>
      simp only
      rw [if_neg hr]
      exact SwSpec.Live.egg (l := ⟨r, n, _⟩) (List.mem_cons_self ..)
    | ch t =>
      simp only
      unfold PSpec.add
      rw [if_neg hr]
      exact SwSpec.Live.ch (l := ⟨t, r, n, _⟩) (List.mem_cons_self ..)
  unfold SwSpec.after
  cases c with
  | malloc h m => cases hq; exact key _
  | memalign h m => cases hq; exact key _
  | calloc h m z => cases hq; exact key _
  | free p => cases hq
  | realloc p h m =>
    cases hq
    obtain rfl := hp p _ _ rfl
    simp only [if_true]
    exact key _

/-- **C71**, capture of the requests: the block that a thread asks for while it is switched to chain `k` is found in a bloc of
`k`, whatever chain the thread had before. -/
theorem C71_capture {C : Config} {s s' : SwState} {G : SwSpec} {u h0 : Nat} {c : SwCall} {b n r : Nat} (hf : C.reallocFactor ≠ 0)
    (h : SwReach C s G) (hv : SwValid s G (.call u h0 c)) (ex : swExec C s (.call u h0 c) = .ok (s', r)) (hr : r ≠ 0)
    (hq : c.req = some (b, n)) (hp : ∀ p h z, c = .realloc p h z → p = 0) :
    ∃ R m, regionGetMacroBloc s'.e.p.w.mem s'.e.p.w.regs r = .ok (R, m) ∧ m ≠ 0 ∧
      (s.next u).addrIn s'.e = some (readLE s'.e.p.w.mem (m + 16) 8) :=
  C71_owner hf (h.step hv ex) (C71_new hr (by unfold SwState.next; split <;> simp_all) hq hp)

theorem resize_live {G : SwSpec} {q m p n : Nat} {pl : Bool} {o : Cur} (h : (G.resize q m).Live p n pl o) :
    ∃ n', G.Live p n' pl o ∧ (p ≠ q → n' = n) := by
  cases h with
  | @ch l h =>
    obtain ⟨l0, hl0, rfl⟩ := List.mem_map.1 (show l ∈ G.P.live.map _ from h)
    by_cases he : l0.ptr = q
    · rw [if_pos he]; exact ⟨_, .ch (l := l0) hl0, fun h => absurd he h⟩
    · rw [if_neg he]; exact ⟨_, .ch (l := l0) hl0, fun _ => rfl⟩
  | @egg l h =>
    obtain ⟨l0, hl0, rfl⟩ := List.mem_map.1 (show l ∈ G.E.map _ from h)
    by_cases he : l0.ptr = q
    · rw [if_pos he]; exact ⟨_, .egg (l := l0) hl0, fun h => absurd he h⟩
    · rw [if_neg he]; exact ⟨_, .egg (l := l0) hl0, fun _ => rfl⟩

theorem del_sub {G : SwSpec} {k : Cur} {q p n : Nat} {pl : Bool} {o : Cur} (h : (G.del k q).Live p n pl o) : G.Live p n pl o := by
  cases h with
  | @ch l h => exact .ch (List.mem_filter.1 (show l ∈ G.P.live.filter _ from h)).1
  | @egg l h => exact .egg (List.mem_filter.1 (show l ∈ G.E.filter _ from h)).1

/-- **C71**. A chain gets no block while no thread is on it. -/
theorem C71_no_new {G : SwSpec} {k : Cur} {c : SwCall} {i p n r : Nat} {pl : Bool} (hk : k ≠ .ch i)
    (hl : (G.after k c r).Live p n pl (.ch i)) : ∃ n', G.Live p n' pl (.ch i) := by
  have h1 : ∀ {G : SwSpec} {k : Cur} {z : Nat} {pl' : Bool}, k ≠ .ch i → (G.add k r z pl').Live p n pl (.ch i) →
      G.Live p n pl (.ch i) := by
    intro G k z pl' hk h
    rcases add_cases h with ⟨_, _, h, _⟩ | h
    · exact absurd h.symm hk
    · exact h
  unfold SwSpec.after at hl
  cases c with
  | malloc h m => exact ⟨n, drain_live.1 (h1 hk hl)⟩
  | memalign h m => exact ⟨n, drain_live.1 (h1 hk hl)⟩
  | calloc h m z => exact ⟨n, drain_live.1 (h1 hk hl)⟩
  | free q => exact ⟨n, drain_live.1 (del_sub hl)⟩
  | realloc q h m =>
    simp only at hl
    split at hl
    · exact ⟨n, drain_live.1 (h1 hk hl)⟩
    split at hl
    · exact ⟨n, drain_live.1 (del_sub hl)⟩
    split at hl
    · split at hl
      · obtain ⟨n', h, _⟩ := resize_live hl; exact ⟨n', h⟩
      · exact ⟨n, del_sub (h1 (by rintro ⟨⟩) hl)⟩
    split at hl
    · split at hl
      · obtain ⟨n', h, _⟩ := resize_live hl; exact ⟨n', h⟩
      · exact ⟨n, del_sub (h1 hk hl)⟩
    · exact ⟨n, drain_live.1 (del_sub (h1 hk hl))⟩

theorem drain_keeps {G : SwSpec} {k : Cur} {l : PBlock} (hk : k ≠ .ch l.owner) (hl : l ∈ G.P.live ++ G.P.pend) :
    l ∈ (G.drain k).P.live ++ (G.drain k).P.pend := by
  cases k with
  | none => exact hl
  | egg => exact hl
  | ch t =>
    rcases List.mem_append.1 hl with h | h
    · exact List.mem_append_left _ h
    · exact List.mem_append_right _ (List.mem_filter.2 ⟨h, by simpa using fun e : l.owner = t => hk (by rw [e])⟩)

theorem del_keeps {G : SwSpec} {k : Cur} {p : Nat} {l : PBlock} (hk : k ≠ .ch l.owner) (hl : l ∈ G.P.live ++ G.P.pend) :
    l ∈ (G.del k p).P.live ++ (G.del k p).P.pend := by
  unfold SwSpec.del
  rcases List.mem_append.1 hl with h | h
  · by_cases hp : l.ptr = p
    · exact List.mem_append_right _ (List.mem_append_left _ (List.mem_filter.2 ⟨h, by simpa using ⟨hp, fun e => hk e.symm⟩⟩))
    · exact List.mem_append_left _ (List.mem_filter.2 ⟨h, by simpa using hp⟩)
  · exact List.mem_append_right _ (List.mem_append_right _ h)

theorem add_keeps {G : SwSpec} {k : Cur} {r n : Nat} {pl : Bool} {l : PBlock} (hl : l ∈ G.P.live ++ G.P.pend) :
    l ∈ (G.add k r n pl).P.live ++ (G.add k r n pl).P.pend := by
  cases k with
  | none => exact hl
  | egg =>
    unfold SwSpec.add
    simp only
    split
    · exact hl
    · exact hl
  | ch t =>
    unfold SwSpec.add PSpec.add
    simp only
    split
    · exact hl
    · exact List.mem_cons_of_mem _ hl

/-- **C71**. A block of a chain on which no thread is stays with the chain: it is live, or waits in the queue of the chain. -/
theorem C71_kept {C : Config} {s : SwState} {G : SwSpec} {k : Cur} {c : SwCall} {r : Nat} {l : PBlock} (hf : C.reallocFactor ≠ 0)
    (h : SwReach C s G) (hk : k ≠ .ch l.owner) (hl : l ∈ G.P.live ++ G.P.pend) :
    l ∈ (G.after k c r).P.live ++ (G.after k c r).P.pend := by
  obtain ⟨a, buf, Ω, A, Lb, I, hc⟩ := h.inv hf
  unfold SwSpec.after
  cases c with
  | malloc h m => exact add_keeps (drain_keeps hk hl)
  | memalign h m => exact add_keeps (drain_keeps hk hl)
  | calloc h m z => exact add_keeps (drain_keeps hk hl)
  | free q => exact del_keeps hk (drain_keeps hk hl)
  | realloc q h m =>
    have hres : (∃ o, o ≠ .ch l.owner ∧ ∃ n pl, G.Live q n pl o) → l ∈ (G.resize q m).P.live ++ (G.resize q m).P.pend := by
      rintro ⟨o, ho, n, pl, hq⟩
      rcases List.mem_append.1 hl with h | h
      · refine List.mem_append_left _ (List.mem_map.2 ⟨l, h, ?_⟩)
        rw [if_neg]
        intro he
        have hq2 := SwSpec.Live.ch h
        rw [he] at hq2
        exact ho (I.live_inj hq hq2).2.2
      · exact List.mem_append_right _ h
    simp only
    split
    · exact add_keeps (drain_keeps hk hl)
    split
    · exact del_keeps hk (drain_keeps hk hl)
    split
    · rename_i he
      obtain ⟨m', hm, e1⟩ := List.any_eq_true.1 (show G.E.any _ = true from he)
      split
      · refine hres ⟨.egg, by rintro ⟨⟩, m'.len, m'.plain, ?_⟩
        have := SwSpec.Live.egg hm
        rwa [of_decide_eq_true e1] at this
      · exact add_keeps (del_keeps (by rintro ⟨⟩) hl)
    split
    · rename_i hegg he
      split
      · refine hres ?_
        cases k with
        | none => cases he
        | egg => exact absurd he hegg
        | ch t =>
          obtain ⟨m', hm, e1⟩ := List.any_eq_true.1 (show G.P.live.any _ = true from he)
          obtain ⟨e2, e3⟩ := of_decide_eq_true e1
          have := SwSpec.Live.ch hm
          rw [e2] at this
          refine ⟨.ch m'.owner, ?_, m'.len, m'.plain, this⟩
          rw [e3]; exact hk
      · exact add_keeps (del_keeps hk hl)
    · exact add_keeps (del_keeps hk (drain_keeps hk hl))

/-- **C71**. Once a thread is on the chain again, its next request or free takes back all the blocks that waited there. -/
theorem C71_taken_back {G : SwSpec} {c : SwCall} {i r : Nat} (hc : ∀ p h n, c ≠ .realloc p h n) :
    ∀ l ∈ (G.after (.ch i) c r).P.pend, l.owner ≠ i := by
  have h1 : ∀ l ∈ (G.drain (.ch i)).P.pend, l.owner ≠ i := by
    intro l hl
    simpa using (List.mem_filter.1 (show l ∈ G.P.pend.filter _ from hl)).2
  have h2 : ∀ n pl, ∀ l ∈ ((G.drain (.ch i)).add (.ch i) r n pl).P.pend, l.owner ≠ i := by
    intro n pl l hl
    unfold SwSpec.add at hl
    simp only at hl
    rw [add_pend] at hl
    exact h1 l hl
  unfold SwSpec.after
  cases c with
  | malloc h m => exact h2 _ _
  | memalign h m => exact h2 _ _
  | calloc h m z => exact h2 _ _
  | realloc q h m => exact absurd rfl (hc q h m)
  | free q =>
    intro l hl
    rcases List.mem_append.1 (show l ∈ List.filter _ _ ++ _ from hl) with h | h
    · have := (List.mem_filter.1 h).2
      simp only [decide_eq_true_eq] at this
      exact fun e => this.2 (by rw [e])
    · exact h1 l h

/-- **C71**. The switch returns the chain of before; switching back with it restores the state, and the other threads see
nothing. -/
theorem C71_restore (s : SwState) (u : Nat) (c : Cur) :
    (setDefault s u c).2 = s.cur u ∧ getCurrent (setDefault s u c).1 u = c ∧
    (∀ v, v ≠ u → getCurrent (setDefault s u c).1 v = getCurrent s v) ∧
    (setDefault (setDefault s u c).1 u (setDefault s u c).2).1 = s := by
  refine ⟨rfl, if_pos rfl, fun v hv => if_neg hv, ?_⟩
  unfold setDefault
  simp only
  congr 1
  funext v
  split
  · rename_i h; rw [h]
  · rfl

/-- **C71** is false of a thread that is on the egg chain, however much memory the kernel has: a request of 2 MB or more gets
NULL, and the call of calloc has no defined behaviour (it stores at NULL). The egg chain has no memory source. -/
theorem C71_egg_refuted {C : Config} {s : SwState} {G : SwSpec} {u h0 h : Nat} (hf : C.reallocFactor ≠ 0) (hr : SwReach C s G)
    (hu : s.cur u = .egg) (hb0 : GoodBound h0) (hs0 : h0 + CHAIN_SIZE + 16 < W64) (hb : GoodBound h) :
    (∀ n, MB2 ≤ n → PSize (reqSize h n) → ∃ s', swExec C s (.call u h0 (.malloc h n)) = .ok (s', 0)) ∧
    ∀ n z, MB2 ≤ n * z → n * z < W64 → PSize (reqSize h (n * z)) → swExec C s (.call u h0 (.calloc h n z)) = .ub := by
  obtain ⟨a, buf, Ω, A, Lb, I, hc⟩ := hr.inv hf
  have hnext : s.next u = .egg := SwState.next_egg.2 hu
  have key : ∀ {e : ES} {G' : SwSpec} {Ω' : Env} {A' : AHeap} {Lb' : List Block} {k : Cur} {p n : Nat} {pl : Bool}, CInv e G' a buf Ω' A' Lb' →
      G'.Live p n pl k → k = .egg → n < MB2 := by
    intro e G' Ω' A' Lb' k p n pl I' hl hk
    cases hl with
    | ch hl => cases hk
    | egg hl =>
      have := I'.rangeE hl
      omega
  constructor
  · intro n hn hsz
    rcases I.swStep (C := C) hf hc (op := .call u h0 (.malloc h n)) ⟨hb0, hs0, hb, hsz⟩ with
      ⟨h1, _⟩ | ⟨s', r, _, _, _, e1, I', _⟩
    · refine absurd ⟨?_, ?_, ?_⟩ h1
      · rw [hu]; rintro ⟨⟩
      · exact fun _ _ _ h => absurd hnext h
      · rintro _ _ _ ⟨⟩
    · by_cases hr0 : r = 0
      · subst hr0; exact ⟨s', e1⟩
      · have := key I' (C71_new (k := s.next u) (c := .malloc h n) hr0 (by rw [hnext]; rintro ⟨⟩) rfl (by rintro _ _ _ ⟨⟩)) hnext
        omega
  · intro n z hn hlt hsz
    rcases I.swStep (C := C) hf hc (op := .call u h0 (.calloc h n z)) ⟨hb0, hs0, hb, hlt, hsz⟩ with
      ⟨_, e1⟩ | ⟨s', r, _, _, _, e1, I', k, _⟩
    · exact e1
    · have hr0 := (k.calloc _ _ _ _ _ rfl).1
      have := key I' (C71_new (k := s.next u) (c := .calloc h n z) hr0 (by rw [hnext]; rintro ⟨⟩) rfl (by rintro _ _ _ ⟨⟩)) hnext
      omega

theorem CInv.chains {e : ES} {G : SwSpec} {a buf : Nat} {Ω : Env} {A : AHeap} {Lb : List Block} (I : CInv e G a buf Ω A Lb) :
    e.p.chs.length ≤ 1248 := by
  have h1 := I.ei.count
  obtain ⟨H, L, D, B, _⟩ := I.ei.p
  have h2 := congrArg List.length B.env.addrs
  simp only [List.length_map] at h2
  have h2 : e.p.chs.length = Ω.ths.length := h2
  omega

/-- A thread is switched to NULL and frees NULL, `n` times. -/
def nullCalls (C : Config) (h u : Nat) : Nat → SwState → Outcome SwState
  | 0, s => .ok s
  | n + 1, s => do
    let (s, _) ← swExec C s (.set u .none)
    let (s, _) ← swExec C s (.call u h (.free 0))
    nullCalls C h u n s

/-- **C71** is false of a thread that is switched to NULL again and again: each time the next call makes a chain for the
thread, whose old chain is forgotten, and in every state of every process 1249 times are too many. -/
theorem C71_null_refuted {C : Config} {s : SwState} {G : SwSpec} {u h : Nat} (hf : C.reallocFactor ≠ 0) (hr : SwReach C s G)
    (hb : GoodBound h) (hs : h + CHAIN_SIZE + 16 < W64) : nullCalls C h u 1249 s = .ub := by
  obtain ⟨a, buf, Ω, A, Lb, I, hc⟩ := hr.inv hf
  have key : ∀ (n : Nat) (s : SwState) (G : SwSpec) (Ω : Env) (A : AHeap) (Lb : List Block), CInv s.e G a buf Ω A Lb →
      (∀ u i, s.cur u = .ch i → i < s.e.p.chs.length) → 1249 ≤ s.e.p.chs.length + n → nullCalls C h u n s = .ub := by
    intro n
    induction n with
    | zero =>
      intro s G Ω A Lb I hc hn
      have := I.chains
      omega
    | succ n ih =>
      intro s G Ω A Lb I hc hn
      rw [nullCalls]
      rcases I.swStep (C := C) hf hc (op := .set u .none) (by rintro i ⟨⟩) with ⟨h1, _⟩ | ⟨s1, r1, Ω1, A1, L1, e1, I1, k1, _, c1⟩
      · exact absurd trivial h1
      rw [e1, Outcome.ok_bind]
      simp only
      have hn1 : s1.cur u = .none := by
        have := k1.cur u
        simpa using this
      have hl1 : s1.e.p.chs.length = s.e.p.chs.length := k1.chains
      rcases I1.swStep (C := C) hf c1 (op := .call u h (.free 0)) ⟨hb, hs, Or.inl rfl⟩ with ⟨_, e2⟩ |
        ⟨s2, r2, Ω2, A2, L2, e2, I2, k2, _, c2⟩
      · rw [e2]; rfl
      · rw [e2, Outcome.ok_bind]
        have hl2 := k2.chains
        simp only at hl2
        rw [if_pos hn1] at hl2
        exact ih s2 _ Ω2 A2 L2 I2 c2 (by omega)
  exact key 1249 s G Ω A Lb I hc (by omega)

theorem sample_fresh (z : Nat) (h0 : 0 < z) (hz : z ≤ 1099511627776) :
    Os.Fresh ⟨fun _ => 16777216, 0, fun x => decide (x < 8388608)⟩ 16777216 z := by
  have hp : pageUp z ≤ z + 4096 := by unfold pageUp; omega
  refine ⟨by omega, by omega, by omega, by omega, fun i _ => ?_⟩
  exact decide_eq_false (by omega)

/-- A process at its start: the egg chain has room for the structure of a chain, and the kernel has memory. -/
theorem default_start : ∃ e, SwReach Config.default ⟨e, fun _ => .none⟩ ⟨⟨[], []⟩, []⟩ ∧ EggHas ⟨e, fun _ => .none⟩ 0 CHAIN_SIZE ∧
    e.p.chs.length = 0 ∧ ∀ N, N ≤ 1073741824 → HasMem e.p N := by
  have hb : GoodBound 0 := by unfold GoodBound; omega
  have hs : 0 + LIGHT_SIZE + 16 < W64 := by unfold LIGHT_SIZE; omega
  rcases eggInit_full (C := Config.default) egg_start (h := 0) hb hs with
    ⟨_, h⟩ | ⟨e, Ω, A, Lb, e1, I, h1, h2, h3, h4, h5, h6, h7, h8, h9⟩
  · exact absurd h (by decide)
  · refine ⟨e, .init egg_start hb hs e1, ?_, by rw [h2]; rfl, ?_⟩
    · obtain ⟨f, f1, f2, f3, _⟩ := h3 (by omega)
      obtain ⟨g, hg, hf⟩ := f1
      have hgs := (I False).h.segOf hg
      have hw := (I False).h.chunksOf hg
      rw [List.mem_singleton] at hgs
      rw [show g.base = _ from congrArg Prod.fst hgs, show g.size = _ from congrArg Prod.snd hgs] at hw
      refine ⟨_, f.addr, f.size, by show BufChunks e.p.w.mem e.egg.base MB2 _; rw [h7]; exact hw,
        List.mem_map.2 ⟨f, hf, ?_⟩, ?_⟩
      · unfold Ck.view; rw [f2]; rfl
      · unfold CHAIN_SIZE
        simp only [show ¬ (1 < 0) by omega, if_false]
        omega
    · intro N hN
      unfold HasMem
      rw [h9]
      exact sample_fresh (N + 80 + MB2) (by omega) (by omega)

-- The hypotheses are met: the first call of thread 0 makes its chain and gets a block; it is then switched to the egg chain,
-- where it may call, and where a request of 3 MB gets NULL although the kernel has memory.
example : ∃ s s' G r, SwReach Config.default s G ∧ SwValid s G (.call 0 0 (.malloc 0 100)) ∧ SwMem s (.call 0 0 (.malloc 0 100)) ∧
    swExec Config.default s (.call 0 0 (.malloc 0 100)) = .ok (s', r) ∧ r ≠ 0 ∧ (G.after (.ch 0) (.malloc 0 100) r).Live r 100 true (.ch 0) ∧
    SwValid s' (G.after (.ch 0) (.malloc 0 100) r) (.set 0 .egg) ∧
    ∃ s3 s4, swExec Config.default s' (.set 0 .egg) = .ok (s3, 0) ∧
      SwMem s3 (.call 0 0 (.malloc 0 3000000)) ∧ SwValid s3 (G.after (.ch 0) (.malloc 0 100) r) (.call 0 0 (.realloc r 0 200)) ∧
      swExec Config.default s3 (.call 0 0 (.malloc 0 3000000)) = .ok (s4, 0) ∧ nullCalls Config.default 0 0 1249 s3 = .ub := by
  obtain ⟨e, R, he, hlen, hm⟩ := default_start
  have hf : Config.default.reallocFactor ≠ 0 := by decide
  have hb : GoodBound 0 := by unfold GoodBound; omega
  have hs : 0 + CHAIN_SIZE + 16 < W64 := by unfold CHAIN_SIZE; omega
  have hv : SwValid ⟨e, fun _ => .none⟩ ⟨⟨[], []⟩, []⟩ (.call 0 0 (.malloc 0 100)) := ⟨hb, hs, hb, by unfold PSize reqSize; simp⟩
  have hmem : SwMem ⟨e, fun _ => .none⟩ (.call 0 0 (.malloc 0 100)) := by
    refine ⟨fun _ => he, fun b n h _ => ?_, by rintro _ _ _ ⟨⟩⟩
    cases h
    exact hm _ (by decide)
  obtain ⟨s', r, ex, ok⟩ := C71_calls_partial hf R hv hmem
  have hr : r ≠ 0 := fun h => by cases (((ok.malloc _ _ _ _ rfl).2 h).1 : Cur.none = Cur.egg)
  have hnx : SwState.next ⟨e, fun _ => .none⟩ 0 = .ch 0 := by unfold SwState.next; simp only; rw [hlen]
  have R1 := R.step hv ex
  have hG : (SwSpec.mk ⟨[], []⟩ []).swAfter ⟨e, fun _ => .none⟩ (.call 0 0 (.malloc 0 100)) r =
      (SwSpec.mk ⟨[], []⟩ []).after (.ch 0) (.malloc 0 100) r := by
    unfold SwSpec.swAfter; simp only; rw [hnx]
  rw [hG] at R1
  have hl := C71_new (G := ⟨⟨[], []⟩, []⟩) (k := .ch 0) (c := .malloc 0 100) hr (by rintro ⟨⟩) rfl (by rintro _ _ _ ⟨⟩)
  have R2 := R1.step (op := .set 0 .egg) (r := 0) (by rintro i ⟨⟩) rfl
  obtain ⟨s4, e4⟩ := (C71_egg_refuted (u := 0) (h0 := 0) (h := 0) hf R2 (C71_restore s' 0 .egg).2.1 hb hs hb).1 3000000 (by omega)
    (by unfold PSize reqSize; simp)
  refine ⟨_, s', _, r, R, hv, hmem, ex, hr, hl, by rintro i ⟨⟩, _, s4, rfl, ⟨?_, ?_, ?_⟩, ⟨hb, hs, hb, ?_, Or.inr ⟨_, _, _, hl, ?_⟩⟩, e4,
    C71_null_refuted hf R2 hb hs⟩
  · intro h; cases h
  · exact fun _ _ _ h => absurd rfl h
  · rintro _ _ _ ⟨⟩
  · unfold PSize reqSize; simp
  · exact Or.inr (Or.inr (Or.inl rfl))

end MpcAlloc
