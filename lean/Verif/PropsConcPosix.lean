import Verif.ConcProgress
import Verif.PropsPosixNeg

/-
Properties C49, C50 and C51: the process with threads that run at the same time. The client side specification is in
ConcSpec.
-/

namespace MpcAlloc

open Queue (CPC PPC upd upd_same upd_ne InFlight)

/-! ## C49: blocks of threads that run at the same time -/

/-- C49. In every state that the threads can reach, whatever the interleaving, all the blocks are pairwise disjoint and lie
in mapped memory: those of the client, those in the hands of a call, those in the hands of a remote free queue. Missing:
sizes that wrap around or do not fit (`PSize`), and the resize of an aligned block to a larger size by its own thread. -/
theorem C49_blocks_disjoint_partial {C : Config} {X : MCall → Prop} {k : MS} (hf : C.reallocFactor ≠ 0) (h : MReach C X k) :
    (k.G.live ++ (k.G.hand.map Prod.snd ++ k.G.queued)).Pairwise PBlock.Disj ∧
      ∀ l ∈ k.G.live ++ (k.G.hand.map Prod.snd ++ k.G.queued), l.ptr ≠ 0 ∧ l.owner < k.chs.length ∧
        ∀ x, l.Byte x → k.w.src.os.used x = true := by
  obtain ⟨Ω, _, I⟩ := h.inv (cl := False) hf False.elim
  have := I.inv.disj
  rw [List.append_nil] at this
  exact this

/-- C49. Whatever the kernel answers, a step of a thread does what it should for the client, or fails for lack of memory
(which the code does not detect). -/
theorem C49_steps_any_partial {C : Config} {X : MCall → Prop} {k : MS} (hf : C.reallocFactor ≠ 0) (h : MReach C X k) (t : Nat) :
    (¬ StepMem k t ∧ mstep C k t = .ub) ∨ ∃ k' o, mstep C k t = .ok (k', o) ∧ MOut (fun o => o = t) k k' t o := by
  obtain ⟨Ω, _, I⟩ := h.inv (cl := False) hf False.elim
  rcases mstep_ok hf I t with h1 | ⟨k', o, e, _, h2⟩
  · exact Or.inl h1
  · exact Or.inr ⟨k', o, e, h2.own⟩

/-- C49. When the kernel has memory, no step of a thread is undefined or aborts, and it does what it should for the
client. -/
theorem C49_steps_partial {C : Config} {X : MCall → Prop} {k : MS} (hf : C.reallocFactor ≠ 0) (h : MReach C X k) {t : Nat}
    (hm : StepMem k t) : ∃ k' o, mstep C k t = .ok (k', o) ∧ MOut (fun o => o = t) k k' t o := by
  rcases C49_steps_any_partial hf h t with h1 | h1
  · exact absurd hm h1.1
  · exact h1

/-- C49. The record of a call that `MOut` mentions is the one made when the call started: the start of a call makes it from
the memory and the blocks of this state, and steps leave the records alone. -/
theorem C49_record {C : Config} {k : MS} {t : Nat} :
    (∀ op, (k.start t op).call t = some ⟨op, k.w.mem, k.G.live⟩ ∧ ∀ u, u ≠ t → (k.start t op).call u = k.call u) ∧
    (∀ u k' o, mstep C k u = .ok (k', o) → k'.call = k.call) ∧
    (∀ s, (k.spawned s).call = k.call) ∧ ∀ m, (k.setMem m).call = k.call := by
  refine ⟨fun op => ?_, fun u k' o e => (mstep_shape e).call, fun _ => rfl, fun _ => rfl⟩
  have key : (k.start t op).call = upd k.call t (some ⟨op, k.w.mem, k.G.live⟩) := by
    unfold MS.start
    cases op with
    | malloc b n => rfl
    | calloc b n j => rfl
    | free p => rfl
    | realloc p b n =>
      simp only
      split
      · rfl
      · split <;> rfl
  exact ⟨by rw [key, upd_same], fun u hu => by rw [key, upd_ne hu]⟩

/-- C49. The start of a call changes no byte; it takes from the client the block it frees or resizes, and no other. -/
theorem C49_start {k : MS} {t : Nat} (op : MCall) : (k.start t op).w = k.w ∧
    ∀ l, l ∈ (k.start t op).G.live ↔ l ∈ k.G.live ∧
      match op with
      | .free p => l.ptr ≠ p
      | .realloc p _ _ => p = 0 ∨ l.ptr ≠ p
      | _ => True := by
  unfold MS.start
  cases op with
  | malloc b n => exact ⟨rfl, fun l => by simp [MS.go]⟩
  | calloc b n j => exact ⟨rfl, fun l => by simp [MS.go]⟩
  | free p => exact ⟨rfl, fun l => drop_live⟩
  | realloc p b n =>
    simp only
    by_cases hp : p = 0
    · rw [if_pos hp]
      exact ⟨rfl, fun l => by simp [MS.go, hp]⟩
    · rw [if_neg hp]
      split
      · refine ⟨rfl, fun l => ?_⟩
        show l ∈ (k.G.drop p).live ↔ _
        rw [drop_live]; simp [hp]
      · refine ⟨rfl, fun l => ?_⟩
        show l ∈ (k.G.drop p).live ↔ _
        rw [drop_live]; simp [hp]

/-- C49. The first call of a new thread changes no byte of a block. -/
theorem C49_spawn_partial {C : Config} {X : MCall → Prop} {k : MS} {a z pb : Nat} (hf : C.reallocFactor ≠ 0) (h : MReach C X k)
    (hv : PValid k.ps ⟨[], []⟩ (.spawn a z pb)) : ∃ s, posixSpawn k.ps a z pb = .ok s ∧ (k.spawned s).G = k.G ∧
      ∀ l ∈ k.G.live, ∀ x, l.Byte x → (k.spawned s).w.mem x = k.w.mem x := by
  obtain ⟨Ω, _, I⟩ := h.inv (cl := False) hf False.elim
  obtain ⟨h1, h2, h3, h4⟩ := hv
  obtain ⟨s, e, _, K⟩ := spawn_eff I.inv h1 h2 h3 h4
  exact ⟨s, e, rfl, fun l hl x hx => K l (MSpec.live_all hl) trivial x hx⟩

/-- C49. Once all the threads are back in the client, no block is live and no queue holds a block, the source has got back
all its blocs, no region is registered and the chains count no bloc. Missing: requests that need a chunk of 1 MB
(`C24_refuted`). -/
theorem C49_blocs_returned_partial {C : Config} {k : MS} (hf : C.reallocFactor ≠ 0) (h : MReach C MClean k)
    (hi : ∀ t, k.pc t = .idle) (hl : k.G.live = []) (hq : ∀ i, k.head i = 0) :
    k.w.src.counter = 0 ∧ (∀ x, k.w.regs.ent x = 0) ∧ ∀ c ∈ k.chs, c.cnt = 0 := by
  obtain ⟨Ω, hΩ, I⟩ := h.inv (cl := True) hf (fun _ _ h => h)
  have hh : k.G.hand = [] := by
    rw [List.eq_nil_iff_forall_not_mem]
    intro x hx
    have := I.hand x hx
    rw [hi] at this
    cases this
  have hqu : k.G.queued = [] := by
    rw [List.eq_nil_iff_forall_not_mem]
    intro l hl
    obtain ⟨q, R, r⟩ := I.q l.owner
    have e := Queue.C25_nothing_lost R (fun t e p => by rw [r.prod]; simp only; rw [hi t]; simp [projP]) (by rw [r.cons, hi]; rfl)
      (by rw [r.head]; exact hq _)
    have fl := (r.fl l.ptr).2 ⟨l, hl, rfl, rfl⟩
    unfold InFlight at fl
    rcases fl with ⟨t, ht⟩ | fl
    · rw [r.prod] at ht
      simp only at ht
      rw [hi t] at ht
      simp [projP] at ht
    · rw [e, List.length_map] at fl
      rw [List.drop_eq_nil_of_le (by simp)] at fl
      cases fl
  have hall : k.G.all = [] := by unfold MSpec.all; rw [hl, hh, hqu]; rfl
  have J := I.inv
  rw [hall] at J
  obtain ⟨H, L, P, B, hsh⟩ := J.empty
  have B' : PBase k.ps H L ⟨P, Ω⟩ := B
  refine ⟨by have := B.lin.cnt; rw [hsh] at this; exact this, fun x => ?_, fun c hc => ?_⟩
  · by_contra hk
    obtain ⟨d, hd, _⟩ := B.reg.own x hk
    have hd : d ∈ shapes H ++ Ω.blocs := hd
    rw [hsh, hΩ] at hd
    cases hd
  · obtain ⟨t, ht⟩ := List.mem_iff_getElem?.1 hc
    obtain ⟨c', g, hc', hg, T⟩ := B.get (List.getElem?_eq_some_iff.1 ht).1
    obtain rfl : c = c' := Option.some.inj (ht.symm.trans hc')
    rw [T.ch.cnt]
    have : g.A.segs = [] := by
      rw [List.eq_nil_iff_forall_not_mem]
      intro q hq
      have := mem_shapes.2 ⟨t, g, hg, mem_shape.2 ⟨q, hq, rfl⟩⟩
      rw [hsh] at this
      cases this
    rw [this]; rfl

/-! ## C50: a block freed by another thread is given back to its chain exactly once, by its owner -/

/-- C50. A block in the hands of a queue leaves it only by a step of its owner, the one that frees it. -/
theorem C50_owner_frees_partial {C : Config} {X : MCall → Prop} {k k' : MS} {t : Nat} {o : Option Nat} (hf : C.reallocFactor ≠ 0)
    (h : MReach C X k) (e : mstep C k t = .ok (k', o)) {l : PBlock} (hl : l ∈ k.G.queued) :
    l ∈ k'.G.queued ∨ (l.owner = t ∧ ∃ j nxt, k.pc t = .purge j (.dfree l.ptr nxt)) := by
  by_cases h' : l ∈ k'.G.queued
  · exact Or.inl h'
  · rcases C49_steps_any_partial hf h t with ⟨_, e'⟩ | ⟨k1, o1, e', O⟩
    · rw [e'] at e; cases e
    · rw [e'] at e
      obtain ⟨rfl, rfl⟩ := Prod.mk.inj (Outcome.ok.inj e)
      exact Or.inr (O.left l hl h')

/-- C50. A block enters the hands of a queue only by a step of a thread that is not its owner, which has it in hand from a
call to free or realloc. -/
theorem C50_entered_partial {C : Config} {X : MCall → Prop} {k k' : MS} {t : Nat} {o : Option Nat} (hf : C.reallocFactor ≠ 0)
    (h : MReach C X k) (e : mstep C k t = .ok (k', o)) {l : PBlock} (hl : l ∈ k'.G.queued) (hl' : l ∉ k.G.queued) :
    l.owner ≠ t ∧ ∃ l0 r, (t, l0) ∈ k.G.hand ∧ l0.ptr = l.ptr ∧ l0.owner = l.owner ∧ k.pc t = .look l.ptr r := by
  rcases C49_steps_any_partial hf h t with ⟨_, e'⟩ | ⟨k1, o1, e', O⟩
  · rw [e'] at e; cases e
  · rw [e'] at e
    obtain ⟨rfl, rfl⟩ := Prod.mk.inj (Outcome.ok.inj e)
    obtain ⟨h1, l0, r, h2, rfl, h3⟩ := O.entered l hl hl'
    exact ⟨h1, l0, r, h2, rfl, rfl, h3⟩

/-- C50. The free of an entry by the purge: the entry is a block of the thread in the hands of its queue, the pointer stored
in it is its own, and after the step no block is at this address any more. -/
theorem C50_free_step_partial {C : Config} {X : MCall → Prop} {k : MS} {t cur nxt : Nat} {j : Job} (hf : C.reallocFactor ≠ 0)
    (h : MReach C X k) (hpc : k.pc t = .purge j (.dfree cur nxt)) :
    readLE k.w.mem (cur + 8) 8 = cur ∧ (∃ l ∈ k.G.queued, l.owner = t ∧ l.ptr = cur) ∧
    ∃ k', mstep C k t = .ok (k', none) ∧
      ∀ l ∈ k'.G.live ++ (k'.G.hand.map Prod.snd ++ k'.G.queued), l.ptr ≠ cur := by
  obtain ⟨Ω, _, I⟩ := h.inv (cl := False) hf False.elim
  obtain ⟨k', l, e, _, _, _, hG, hl, hlo, hla, hp⟩ := purge_dfree (C := C) I hpc
  refine ⟨hp, ⟨l, hl, hlo, hla⟩, k', e, fun m hm => ?_⟩
  have hm : m ∈ k'.G.all := hm
  rw [hG, MSpec.drop_all] at hm
  simpa using (List.mem_filter.1 hm).2

/-- C50. Nothing is lost: when a thread is not in a purge, finds its queue empty, and no thread is in a push to it, then no
block of this thread is in the hands of a queue. -/
theorem C50_nothing_lost_partial {C : Config} {X : MCall → Prop} {k : MS} {i : Nat} (hf : C.reallocFactor ≠ 0)
    (h : MReach C X k) (h1 : ∀ j c, k.pc i ≠ .purge j c) (h2 : k.head i = 0)
    (h3 : ∀ u c r, k.pc u ≠ .push i c r) : ∀ l ∈ k.G.queued, l.owner ≠ i := by
  obtain ⟨Ω, _, I⟩ := h.inv (cl := False) hf False.elim
  intro l hl ho
  obtain ⟨q, R, r⟩ := I.q i
  have hp : ∀ u, q.prod u = .idle := by
    intro u
    rw [r.prod]
    simp only [projP]
    split
    · rename_i j c r' hc
      split
      · rename_i hj
        subst hj
        exact absurd hc (h3 u c r')
      · rfl
    · rfl
  have hc : q.cons = .idle := by
    rw [r.cons]
    cases hh : k.pc i with
    | purge j c => exact absurd hh (h1 j c)
    | _ => rfl
  have e := Queue.C25_nothing_lost R (fun t e p => by rw [hp t]; simp) hc (by rw [r.head]; exact h2)
  have fl := (r.fl l.ptr).2 ⟨l, hl, ho, rfl⟩
  unfold InFlight at fl
  rcases fl with ⟨t, ht⟩ | fl
  · rw [hp t] at ht
    simp at ht
  · rw [e, List.length_map] at fl
    rw [List.drop_eq_nil_of_le (by simp)] at fl
    cases fl

/-- C50. Every queue entry that a thread is pushing is a block of the owner of the queue, and is in the hands of the
queue. -/
theorem C50_push_partial {C : Config} {X : MCall → Prop} {k : MS} {t i e p r : Nat} (hf : C.reallocFactor ≠ 0)
    (h : MReach C X k) (hpc : k.pc t = .push i (.clear e) r ∨ k.pc t = .push i (.swap e) r ∨ k.pc t = .push i (.link e p) r) :
    ∃ l ∈ k.G.queued, l.owner = i ∧ l.ptr = e := by
  obtain ⟨Ω, _, I⟩ := h.inv (cl := False) hf False.elim
  obtain ⟨q, R, rel⟩ := I.q i
  refine (rel.fl e).1 ?_
  have hp : ∀ c, k.pc t = .push i c r → q.prod t = c := by
    intro c hc
    rw [rel.prod]
    simp only
    rw [hc]
    simp [projP]
  rcases hpc with hc | hc | hc
  · exact Or.inl ⟨t, Or.inl (hp _ hc)⟩
  · exact Or.inl ⟨t, Or.inr (hp _ hc)⟩
  · exact (Queue.inFlight_link R (hp _ hc)).1

/-! ## C51: calls end -/

/-- C51. When no thread is between the two effects of a push to `t`, a call of `t` ends if `t` runs alone, or stops at a
request for which the kernel has no memory. -/
theorem C51_call_ends_partial {C : Config} {X : MCall → Prop} {k : MS} {t : Nat} (hf : C.reallocFactor ≠ 0)
    (h : MReach C X k) (hp : k.pc t ≠ .idle) (hn : ∀ u e p r, k.pc u ≠ .push t (.link e p) r) :
    ∃ n, (∃ k' r, alone C t n k = .ok (k', some r)) ∨ ∃ k', alone C t n k = .ok (k', none) ∧ ¬ StepMem k' t := by
  obtain ⟨Ω, _, I⟩ := h.inv (cl := False) hf False.elim
  obtain ⟨n, h1 | ⟨k', h1, h2⟩⟩ := I.ends hf hn hp
  · exact ⟨n, Or.inl h1⟩
  · refine ⟨n, Or.inr ⟨k', ?_, h2⟩⟩
    have := h1.alone 0
    rw [Nat.zero_add] at this
    rw [this]; rfl

/-- C51. There is no deadlock: from any state that the threads can reach, one step of each of the threads that are between
the two effects of a push to `t`, each of which ends its call, and then steps of `t` alone, end the call of `t`, or stop at
a request for which the kernel has no memory. -/
theorem C51_no_deadlock_partial {C : Config} {X : MCall → Prop} {k : MS} {t : Nat} (hf : C.reallocFactor ≠ 0)
    (h : MReach C X k) (hp : k.pc t ≠ .idle) :
    ∃ L k1, sched C L k = .ok k1 ∧ L.Nodup ∧ (∀ u ∈ L, ∃ e p r, k.pc u = .push t (.link e p) r) ∧
    ∃ n, (∃ k' r, alone C t n k1 = .ok (k', some r)) ∨ ∃ k', alone C t n k1 = .ok (k', none) ∧ ¬ StepMem k' t := by
  obtain ⟨Ω, _, I⟩ := h.inv (cl := False) hf False.elim
  obtain ⟨L, k1, e, d, l, n, h1 | ⟨k', h1, h2⟩⟩ := I.settled hf hp
  · exact ⟨L, k1, e, d, l, n, Or.inl h1⟩
  · refine ⟨L, k1, e, d, l, n, Or.inr ⟨k', ?_, h2⟩⟩
    have := h1.alone 0
    rw [Nat.zero_add] at this
    rw [this]; rfl

/-- C51. A thread between the two effects of a push ends its call with its next step, whatever the others do. -/
theorem C51_push_ends {C : Config} {k : MS} {u i e p r : Nat} (h : k.pc u = .push i (.link e p) r) :
    ∃ k', mstep C k u = .ok (k', some r) ∧ k'.pc u = .idle := link_step h

/-! ## A run -/

/-- The process before its first thread. -/
def ms0 : MS := ⟨ps0.w, [], fun _ => 0, fun _ => 0, fun _ => .idle, ⟨[], [], []⟩, fun _ => none⟩

theorem ms0_reach (C : Config) (X : MCall → Prop) : MReach C X ms0 :=
  .init Regions.empty_ok (fun _ => rfl) (fun x hx => by simpa [os1] using hx)

/-- Two threads in the client. -/
theorem msample_threads {C : Config} (hf : C.reallocFactor ≠ 0) (X : MCall → Prop) :
    ∃ k, MReach C X k ∧ k.chs.length = 2 ∧ k.head = (fun _ => 0) ∧ k.tail = (fun _ => 0) ∧ k.pc = (fun _ => .idle) ∧
      k.G = ⟨[], [], []⟩ ∧ ∀ N, N ≤ 1073741824 → HasMem k.ps N := by
  have hu0 : ∀ f : Nat → Nat, f = (fun _ => 0) → ∀ i, upd f i 0 = fun _ => 0 := by
    rintro f rfl i
    funext x; unfold upd; split <;> rfl
  have r0 := ms0_reach C X
  have v0 : PValid ms0.ps ⟨[], []⟩ (.spawn 4194304 4096 4194304) :=
    ⟨by omega, by omega, by omega, fun x h1 h2 => by
      show decide (x ≤ MB2) = false
      exact decide_eq_false (by omega)⟩
  obtain ⟨s1, e1, _, _⟩ := C49_spawn_partial hf r0 v0
  have r1 := r0.spawn v0 e1
  obtain ⟨q1, l1⟩ := posixSpawn_src (by omega) (by omega) e1
  have u1 : ∀ x, 4198400 ≤ x → s1.w.src.os.used x = false := by
    intro x hx
    rw [q1]
    show (if 4194304 ≤ x ∧ x < 4194304 + 4096 then true else decide (x ≤ MB2)) = false
    rw [if_neg (by omega)]
    exact decide_eq_false (by omega)
  have v1 : PValid (ms0.spawned s1).ps ⟨[], []⟩ (.spawn 8388608 4096 8388608) :=
    ⟨by omega, by omega, by omega, fun x h1 h2 => u1 x (by omega)⟩
  obtain ⟨s2, e2, _, _⟩ := C49_spawn_partial hf r1 v1
  have r2 := r1.spawn v1 e2
  obtain ⟨q2, l2⟩ := posixSpawn_src (by omega) (by omega) e2
  refine ⟨_, r2, ?_, ?_, ?_, rfl, rfl, fun N hN => ?_⟩
  · show s2.chs.length = 2
    rw [l2]
    show s1.chs.length + 1 = 2
    rw [l1]; rfl
  · exact hu0 _ (hu0 _ rfl _) _
  · exact hu0 _ (hu0 _ rfl _) _
  · show HasMem s2 N
    have hk : s2.w.src.os.ans s2.w.src.os.k = 1099511627776 := by
      rw [q2]
      show s1.w.src.os.ans s1.w.src.os.k = 1099511627776
      rw [q1]
      rfl
    unfold HasMem
    rw [hk]
    have hp : pageUp (N + 80 + MB2) ≤ 2147483648 := by unfold pageUp; omega
    refine ⟨by omega, by omega, by omega, by omega, fun i _ => ?_⟩
    rw [q2]
    show (if 8388608 ≤ 1099511627776 + i ∧ 1099511627776 + i < 8388608 + 4096 then true
      else s1.w.src.os.used (1099511627776 + i)) = false
    rw [if_neg (by omega)]
    exact u1 _ (by omega)

/-- A call of a thread whose queue is empty is soon past the purge. -/
theorem start_purge {C : Config} {k : MS} {t : Nat} {j : Job} (h : k.head t = 0) (hp : k.pc t = .purge j .idle) :
    mstep C k t = .ok (k.go t j.next, none) := by
  rw [mstep_purge hp]
  unfold purgeStep
  simp only
  rw [if_pos h]
  rfl

/-- The first thread has obtained a block of `n` bytes. -/
theorem msample_any {C : Config} (hf : C.reallocFactor ≠ 0) {X : MCall → Prop} {n : Nat} (hr : reqSize 0 n = n) (hs : PSize n)
    (hn : n ≤ 1073741824) (hX : X (.malloc 0 n)) :
    ∃ k r, MReach C X k ∧ k.chs.length = 2 ∧ k.head = (fun _ => 0) ∧ k.tail = (fun _ => 0) ∧ (∀ u, k.pc u = .idle) ∧
      r ≠ 0 ∧ k.G.live = [⟨0, r, n, true⟩] ∧ k.G.hand = [] ∧ k.G.queued = [] ∧ ∃ z, posixGetSize k.w.mem r = .ok z ∧
      ((calcChunkSize n ≤ 1048576 ∧ z + 16 < cutSize n + 32) ∨ (1048576 < calcChunkSize n ∧ z + 16 = blocSize n - 48)) := by
  obtain ⟨k, h, hl, hh, ht, hp, hG, hm⟩ := msample_threads hf X
  have r1 := h.call (t := 0) (op := .malloc 0 n) (by omega) (by rw [hp]) ⟨Or.inl (by omega), by rw [hr]; exact hs⟩ hX
  have e1 := start_purge (C := C) (k := k.start 0 (.malloc 0 n)) (t := 0) (j := .alloc 0 n .ret) (by
    show k.head 0 = 0
    rw [hh]) rfl
  have r2 := r1.step e1
  obtain ⟨k2, hk2⟩ : ∃ k2, k2 = (k.start 0 (.malloc 0 n)).go 0 (Job.next (.alloc 0 n .ret)) := ⟨_, rfl⟩
  rw [← hk2] at r2
  have p2 : k2.pc 0 = .alloc 0 n .ret := by rw [hk2]; rfl
  obtain ⟨k3, o, e3, O⟩ := C49_steps_partial hf r2 (t := 0) (by
    unfold StepMem
    rw [p2]
    simp only
    rw [hk2, hr]
    exact hm n hn)
  have r3 := r2.step e3
  have S := mstep_shape e3
  have e4 := e3
  unfold mstep at e4
  rw [p2] at e4
  simp only at e4
  obtain ⟨u1, l1, e4⟩ := Outcome.bind_eq_ok e4
  obtain ⟨⟨u2, r⟩, l2, e4⟩ := Outcome.bind_eq_ok e4
  obtain ⟨f1, f2⟩ := Prod.mk.inj (Outcome.ok.inj e4)
  have hn0 : n ≠ 0 := by
    rintro rfl
    simp [reqSize] at hr
  have hz : ∃ z, posixGetSize k3.w.mem r = .ok z ∧
      ((calcChunkSize n ≤ 1048576 ∧ z + 16 < cutSize n + 32) ∨ (1048576 < calcChunkSize n ∧ z + 16 = blocSize n - 48)) := by
    obtain ⟨Ω, _, I2⟩ := r2.inv (cl := False) hf False.elim
    have ht2 : 0 < k2.chs.length := by
      rw [hk2]
      show 0 < k.chs.length
      omega
    have hc2 := List.getElem?_eq_getElem ht2
    rw [PS.loc_eq (s := k2.ps) hc2] at l1
    rw [← Outcome.ok.inj l1, if_neg hn0] at l2
    have := alloc_size I2.inv hc2 hn0 hs l2
    rw [← f1]
    exact this
  obtain ⟨c, hc, hret⟩ := O.ret r f2.symm
  have hcall : k2.call 0 = some ⟨.malloc 0 n, k.w.mem, k.G.live⟩ := by rw [hk2]; rfl
  rw [hcall] at hc
  rw [← Option.some.inj hc] at hret
  have hr0 : r ≠ 0 := hret.1
  have hG3 : k3.G = (k2.G.add 0 0 r n true).toLive r := by rw [← f1]; rfl
  have hG2 : k2.G = ⟨[], [], []⟩ := by rw [hk2]; exact hG
  have hG4 : k3.G = ⟨[⟨0, r, n, true⟩], [], []⟩ := by
    rw [hG3, hG2]
    simp [MSpec.add, hr0, MSpec.toLive, MSpec.find, MSpec.drop, MSpec.all]
  refine ⟨k3, r, r3, ?_, ?_, ?_, ?_, hr0, by rw [hG4], by rw [hG4], by rw [hG4], hz⟩
  · rw [← f1]
    show (k2.chs.set 0 _).length = 2
    rw [List.length_set, hk2]
    exact hl
  · rw [← f1, hk2]
    exact hh
  · rw [← f1, hk2]
    exact ht
  · intro u
    by_cases hu : u = 0
    · rw [hu, ← f1]; rfl
    · rw [S.pc u hu, hk2]
      show upd (upd k.pc 0 _) 0 _ u = _
      rw [upd_ne hu, upd_ne hu, hp]

/-- The first thread has obtained a block. -/
theorem msample_block {C : Config} (hf : C.reallocFactor ≠ 0) {X : MCall → Prop} (hX : X (.malloc 0 100)) :
    ∃ k r, MReach C X k ∧ k.chs.length = 2 ∧ k.head = (fun _ => 0) ∧ k.tail = (fun _ => 0) ∧ (∀ u, k.pc u = .idle) ∧
      r ≠ 0 ∧ k.G.live = [⟨0, r, 100, true⟩] ∧ k.G.hand = [] ∧ k.G.queued = [] := by
  obtain ⟨k, r, h1, h2, h3, h4, h5, h6, h7, h8, h9, _⟩ := msample_any hf (X := X) (n := 100) (by decide) (by unfold PSize; omega)
    (by omega) hX
  exact ⟨k, r, h1, h2, h3, h4, h5, h6, h7, h8, h9⟩

/-- The second thread has found that the block belongs to the first, and is about to push it to its queue. -/
theorem msample_clear {C : Config} (hf : C.reallocFactor ≠ 0) {X : MCall → Prop} (hX : X (.malloc 0 100)) (hX' : ∀ p, X (.free p)) :
    ∃ k r, MReach C X k ∧ k.chs.length = 2 ∧ k.head = (fun _ => 0) ∧ k.tail = (fun _ => 0) ∧ (∀ u, u ≠ 1 → k.pc u = .idle) ∧
      k.pc 1 = .push 0 (.clear r) 0 ∧ r ≠ 0 ∧ k.G = ⟨[], [], [⟨0, r, 100, true⟩]⟩ := by
  obtain ⟨k, r, h, hl, hh, ht, hp, hr, g1, g2, g3⟩ := msample_block hf hX
  have hG : k.G = ⟨[⟨0, r, 100, true⟩], [], []⟩ := by rw [← g1, ← g2, ← g3]
  have r1 := h.call (t := 1) (op := .free r) (by omega) (hp 1) (Or.inr ⟨⟨0, r, 100, true⟩, by rw [g1]; simp, rfl⟩) (hX' r)
  have e1 := start_purge (C := C) (k := k.start 1 (.free r)) (t := 1) (j := .free r 0) (by
    show k.head 1 = 0
    rw [hh]) rfl
  have r2 := r1.step e1
  obtain ⟨k2, hk2⟩ : ∃ k2, k2 = (k.start 1 (.free r)).go 1 (Job.next (.free r 0)) := ⟨_, rfl⟩
  rw [← hk2] at r2
  have p2 : k2.pc 1 = .look r 0 := by rw [hk2]; rfl
  have hG2 : k2.G = ⟨[], [(1, ⟨0, r, 100, true⟩)], []⟩ := by
    rw [hk2]
    show k.G.toHand 1 r = _
    rw [hG]
    simp [MSpec.toHand, MSpec.find, MSpec.drop, MSpec.all]
  obtain ⟨Ω, _, I2⟩ := r2.inv (cl := False) hf False.elim
  obtain ⟨R, _, e3⟩ := I2.look_eq (C := C) (l := ⟨0, r, 100, true⟩) p2 (by rw [hG2]; simp)
  rw [if_neg (by simp)] at e3
  have r3 := r2.step e3
  obtain ⟨k3, hk3⟩ : ∃ k3, k3 = MS.go { k2 with w := { k2.w with regs := R }, G := k2.G.toQueue r } 1 (.push 0 (.clear r) 0) :=
    ⟨_, rfl⟩
  rw [← hk3] at r3
  have p3 : k3.pc 1 = .push 0 (.clear r) 0 := by rw [hk3]; rfl
  have hG3 : k3.G = ⟨[], [], [⟨0, r, 100, true⟩]⟩ := by
    rw [hk3]
    show k2.G.toQueue r = _
    rw [hG2]
    simp [MSpec.toQueue, MSpec.find, MSpec.drop, MSpec.all, PBlock.wide]
  refine ⟨k3, r, r3, by rw [hk3, hk2]; exact hl, by rw [hk3, hk2]; exact hh, by rw [hk3, hk2]; exact ht, fun u hu => ?_, p3, hr, hG3⟩
  rw [hk3]
  show upd k2.pc 1 _ u = .idle
  rw [upd_ne hu, hk2]
  show upd (upd k.pc 1 _) 1 _ u = .idle
  rw [upd_ne hu, upd_ne hu]
  exact hp u

/-- The second thread is in the push of the block to the queue of the first, between its two effects. -/
theorem msample_link {C : Config} (hf : C.reallocFactor ≠ 0) {X : MCall → Prop} (hX : X (.malloc 0 100)) (hX' : ∀ p, X (.free p)) :
    ∃ k r, MReach C X k ∧ k.chs.length = 2 ∧ k.head 0 = 0 ∧ k.tail 0 = r ∧ (∀ u, u ≠ 1 → k.pc u = .idle) ∧ k.pc 1 = .push 0 (.link r 0) 0 ∧
      r ≠ 0 ∧ k.G = ⟨[], [], [⟨0, r, 100, true⟩]⟩ := by
  obtain ⟨k3, r, r3, hl, hh, ht, hp, p3, hr, hG3⟩ := msample_clear hf hX hX'
  obtain ⟨k4, o, e4, _⟩ := C49_steps_partial hf r3 (t := 1) (by unfold StepMem; rw [p3]; trivial)
  have r4 := r3.step e4
  have e4' := e4
  unfold mstep at e4'
  rw [p3] at e4'
  simp only at e4'
  unfold pushStep at e4'
  simp only at e4'
  obtain ⟨v, _, e4'⟩ := Outcome.bind_eq_ok e4'
  split at e4'
  · cases e4'
  obtain ⟨f1, f2⟩ := Prod.mk.inj (Outcome.ok.inj e4')
  have p4 : k4.pc 1 = .push 0 (.swap r) 0 := by rw [← f1]; rfl
  have e5 : mstep C k4 1 = .ok ({ k4 with tail := upd k4.tail 0 r }.go 1 (.push 0 (.link r (k4.tail 0)) 0), none) := by
    unfold mstep
    rw [p4]
    rfl
  have r5 := r4.step e5
  have ht4 : k4.tail = fun _ => 0 := by rw [← f1]; exact ht
  have hh4 : k4.head = fun _ => 0 := by rw [← f1]; exact hh
  refine ⟨_, r, r5, ?_, ?_, rfl, ?_, ?_, hr, ?_⟩
  · show k4.chs.length = 2
    rw [← f1]; exact hl
  · show k4.head 0 = 0
    rw [hh4]
  · intro u hu
    show upd k4.pc 1 _ u = .idle
    rw [upd_ne hu, ← f1]
    show upd k3.pc 1 _ u = .idle
    rw [upd_ne hu]
    exact hp u hu
  · show MPc.push 0 (.link r (k4.tail 0)) 0 = _
    rw [ht4]
  · show k4.G = _
    rw [← f1]
    exact hG3

/-- The second thread has freed the block, the first is in malloc and about to free it for good. -/
theorem msample_dfree {C : Config} (hf : C.reallocFactor ≠ 0) {X : MCall → Prop} (hX : X (.malloc 0 100)) (hX' : ∀ p, X (.free p)) :
    ∃ k r nxt, MReach C X k ∧ k.pc 0 = .purge (.alloc 0 100 .ret) (.dfree r nxt) ∧ (∀ u, u ≠ 0 → k.pc u = .idle) ∧ r ≠ 0 ∧
      k.G = ⟨[], [], [⟨0, r, 100, true⟩]⟩ := by
  obtain ⟨k, r, h, hl, hh, ht, p0, p1, hr, hG⟩ := msample_link hf hX hX'
  have hz : reqSize 0 100 = 100 := by decide
  have e1 : mstep C k 1 = .ok ({ k with head := upd k.head 0 r }.ret 1 0) := by
    unfold mstep
    rw [p1]
    rfl
  obtain ⟨k1, hk1⟩ : ∃ k1, k1 = (MS.ret { k with head := upd k.head 0 r } 1 0).1 := ⟨_, rfl⟩
  have r1 : MReach C X k1 := by rw [hk1]; exact h.step e1
  have hG1 : k1.G = ⟨[], [], [⟨0, r, 100, true⟩]⟩ := by
    rw [hk1]
    show k.G.toLive 0 = _
    rw [hG]
    simp [MSpec.toLive, MSpec.find, MSpec.drop, MSpec.all, hr]
  have h0 : k1.head 0 = r := by rw [hk1]; rfl
  have t0 : k1.tail 0 = r := by rw [hk1]; exact ht
  have r2 := r1.call (t := 0) (op := .malloc 0 100) (by rw [hk1]; show 0 < k.chs.length; omega) (by rw [hk1]; exact p0 0 (by omega))
    ⟨Or.inl (by omega), by rw [hz]; unfold PSize; omega⟩ hX
  have go : ∀ (k : MS) (c : CPC) (k' : MS), MReach C X k → k.pc 0 = .purge (.alloc 0 100 .ret) c →
      purgeStep C k 0 (.alloc 0 100 .ret) c = .ok k' → MReach C X k' := by
    intro k c k' h hp e
    refine h.step (t := 0) (o := none) ?_
    rw [mstep_purge hp, e]
    rfl
  have q1 := go _ .idle _ r2 rfl rfl
  rw [show (if (k1.start 0 (.malloc 0 100)).head 0 = 0 then
    (k1.start 0 (.malloc 0 100)).go 0 (Job.next (.alloc 0 100 .ret)) else (k1.start 0 (.malloc 0 100)).go 0
      (.purge (.alloc 0 100 .ret) .load)) = (k1.start 0 (.malloc 0 100)).go 0 (.purge (.alloc 0 100 .ret) .load) from
    if_neg (by show k1.head 0 ≠ 0; rw [h0]; exact hr)] at q1
  obtain ⟨a1, ha1⟩ : ∃ a1, a1 = (k1.start 0 (.malloc 0 100)).go 0 (.purge (.alloc 0 100 .ret) .load) := ⟨_, rfl⟩
  rw [← ha1] at q1
  have ah : a1.head 0 = r := by rw [ha1]; exact h0
  have q2 := go _ .load (a1.go 0 (.purge (.alloc 0 100 .ret) (.clearHead r))) q1 (by rw [ha1]; rfl) (by
    unfold purgeStep
    simp only
    rw [ah, if_neg hr])
  have q3 := go _ (.clearHead r) _ q2 rfl rfl
  have q4 := go _ (.swapTail r) _ q3 rfl rfl
  have q5 := go _ (.walk r (a1.tail 0) r) _ q4 rfl (by
    unfold purgeStep
    simp only
    rw [if_pos (by rw [ha1]; exact t0.symm)])
  have q6 := go _ (.dread r) _ q5 rfl (by
    unfold purgeStep
    simp only
    rw [if_neg hr])
  refine ⟨_, r, _, q6, rfl, ?_, hr, ?_⟩
  · intro u hu
    show upd (upd (upd (upd (upd a1.pc 0 _) 0 _) 0 _) 0 _) 0 _ u = .idle
    rw [upd_ne hu, upd_ne hu, upd_ne hu, upd_ne hu, upd_ne hu, ha1]
    show upd (upd k1.pc 0 _) 0 _ u = .idle
    rw [upd_ne hu, upd_ne hu, hk1]
    show upd k.pc 1 .idle u = .idle
    unfold upd
    split
    · rfl
    · exact p0 u ‹_›
  · show a1.G = _
    rw [ha1]
    exact hG1

/-- Hypotheses of `C49_blocks_disjoint_partial`, `C50_owner_frees_partial` and `C50_push_partial`: a block in the hands of a
queue, while the other thread is in the client. -/
example : ∃ k r, MReach Config.default (fun _ => True) k ∧ k.pc 1 = .push 0 (.link r 0) 0 ∧ (⟨0, r, 100, true⟩ : PBlock) ∈ k.G.queued ∧
    ∃ k' o, mstep Config.default k 1 = .ok (k', o) := by
  obtain ⟨k, r, h, _, _, _, _, p1, _, hG⟩ := msample_link (C := Config.default) (X := fun _ => True) (by decide) trivial
    (fun _ => trivial)
  obtain ⟨k', o, e, _⟩ := C49_steps_partial (by decide) h (t := 1) (by unfold StepMem; rw [p1]; trivial)
  exact ⟨k, r, h, p1, by rw [hG]; simp, k', o, e⟩

/-- Hypotheses of `C49_steps_partial`: a step that allocates, with memory. -/
example : ∃ k, MReach Config.default (fun _ => True) k ∧ k.pc 0 = .alloc 0 100 .ret ∧ StepMem k 0 := by
  obtain ⟨k, h, hl, hh, ht, hp, hG, hm⟩ := msample_threads (C := Config.default) (by decide) (fun _ => True)
  have hr : reqSize 0 100 = 100 := by decide
  have r1 := h.call (t := 0) (op := .malloc 0 100) (by omega) (by rw [hp]) ⟨Or.inl (by omega), by rw [hr]; unfold PSize; omega⟩
    trivial
  have e1 := start_purge (C := Config.default) (k := k.start 0 (.malloc 0 100)) (t := 0) (j := .alloc 0 100 .ret) (by
    show k.head 0 = 0
    rw [hh]) rfl
  refine ⟨_, r1.step e1, rfl, ?_⟩
  show HasMem k.ps (reqSize 0 100)
  rw [hr]
  exact hm 100 (by omega)

/-- Hypotheses of `C50_free_step_partial` and of `C51_call_ends_partial`. -/
example : ∃ k r nxt, MReach Config.default (fun _ => True) k ∧ k.pc 0 = .purge (.alloc 0 100 .ret) (.dfree r nxt) ∧ k.pc 0 ≠ .idle ∧
    ∀ u e p r, k.pc u ≠ .push 0 (.link e p) r := by
  obtain ⟨k, r, nxt, h, p0, p1, _, _⟩ := msample_dfree (C := Config.default) (X := fun _ => True) (by decide) trivial
    (fun _ => trivial)
  refine ⟨k, r, nxt, h, p0, by rw [p0]; simp, fun u e p r hu => ?_⟩
  by_cases h0 : u = 0
  · rw [h0, p0] at hu; cases hu
  · rw [p1 u h0] at hu; cases hu

/-- Hypotheses of `C49_blocs_returned_partial` and of `C50_nothing_lost_partial`: the first thread has freed its block. -/
example : ∃ k k0 r, MReach Config.default MClean k0 ∧ k0.G.live = [⟨0, r, 100, true⟩] ∧ MReach Config.default MClean k ∧
    k = (k0.start 0 (.free r)) ∧ ∃ k', MReach Config.default MClean k' ∧ (∀ t, k'.pc t = .idle) ∧ k'.G.live = [] ∧
    ∀ i, k'.head i = 0 := by
  have hf : Config.default.reallocFactor ≠ 0 := by decide
  have hcl : MClean (.malloc 0 100) := by
    show CleanSize (reqSize 0 100)
    rw [show reqSize 0 100 = 100 by decide]
    unfold CleanSize
    decide
  obtain ⟨k, r, h, hl, hh, ht, hp, hr, g1, g2, g3⟩ := msample_block (C := Config.default) hf hcl
  have hG : k.G = ⟨[⟨0, r, 100, true⟩], [], []⟩ := by rw [← g1, ← g2, ← g3]
  have r1 := h.call (t := 0) (op := .free r) (by omega) (hp 0) (Or.inr ⟨⟨0, r, 100, true⟩, by rw [g1]; simp, rfl⟩) trivial
  refine ⟨_, k, r, h, g1, r1, rfl, ?_⟩
  have e1 := start_purge (C := Config.default) (k := k.start 0 (.free r)) (t := 0) (j := .free r 0) (by
    show k.head 0 = 0
    rw [hh]) rfl
  have r2 := r1.step e1
  obtain ⟨k2, hk2⟩ : ∃ k2, k2 = (k.start 0 (.free r)).go 0 (Job.next (.free r 0)) := ⟨_, rfl⟩
  rw [← hk2] at r2
  have p2 : k2.pc 0 = .look r 0 := by rw [hk2]; rfl
  have hG2 : k2.G = ⟨[], [(0, ⟨0, r, 100, true⟩)], []⟩ := by
    rw [hk2]
    show k.G.toHand 0 r = _
    rw [hG]
    simp [MSpec.toHand, MSpec.find, MSpec.drop, MSpec.all]
  obtain ⟨Ω, _, I2⟩ := r2.inv (cl := False) hf False.elim
  obtain ⟨R, _, e3⟩ := I2.look_eq (C := Config.default) (l := ⟨0, r, 100, true⟩) p2 (by rw [hG2]; simp)
  rw [if_pos rfl] at e3
  have r3 := r2.step e3
  obtain ⟨k3, hk3⟩ : ∃ k3, k3 = MS.go { k2 with w := { k2.w with regs := R } } 0 (.lfree 0 r 0) := ⟨_, rfl⟩
  rw [← hk3] at r3
  have p3 : k3.pc 0 = .lfree 0 r 0 := by rw [hk3]; rfl
  obtain ⟨k4, o, e4, _⟩ := C49_steps_partial hf r3 (t := 0) (by unfold StepMem; rw [p3]; trivial)
  refine ⟨k4, r3.step e4, ?_⟩
  have S := mstep_shape e4
  unfold mstep at e4
  rw [p3] at e4
  simp only at e4
  obtain ⟨u1, _, e4⟩ := Outcome.bind_eq_ok e4
  obtain ⟨u2, _, e4⟩ := Outcome.bind_eq_ok e4
  obtain ⟨f1, f2⟩ := Prod.mk.inj (Outcome.ok.inj e4)
  refine ⟨fun t => ?_, ?_, fun i => ?_⟩
  · by_cases h0 : t = 0
    · rw [h0, ← f1]; rfl
    · rw [S.pc t h0, hk3]
      show upd k2.pc 0 _ t = _
      rw [upd_ne h0, hk2]
      show upd (upd k.pc 0 _) 0 _ t = _
      rw [upd_ne h0, upd_ne h0]
      exact hp t
  · rw [← f1]
    show ((k3.G.drop r).toLive 0).live = []
    rw [hk3]
    show ((k2.G.drop r).toLive 0).live = []
    rw [hG2]
    simp [MSpec.toLive, MSpec.find, MSpec.drop, MSpec.all]
  · rw [← f1]
    show k3.head i = 0
    rw [hk3, hk2]
    show k.head i = 0
    rw [hh]

end MpcAlloc
