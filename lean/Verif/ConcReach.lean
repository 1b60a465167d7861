import Verif.ConcStep2

/-
The invariant holds in all the reachable states of the process with threads that run at the same time.
-/

namespace MpcAlloc

open Queue (CPC PPC upd upd_same upd_ne InFlight)

theorem Returned.mono {W W' : Nat → Prop} (h : ∀ o, W o → W' o) {k k' : MS} {t r : Nat} {c : MRec}
    (R : Returned W k t c k' r) : Returned W' k t c k' r := by
  unfold Returned at R ⊢
  split at R
  · exact R
  · exact R
  · exact R
  · obtain ⟨r1, r2, r3⟩ := R
    refine ⟨r1, r2, fun a b => ?_⟩
    obtain ⟨s1, s2, s3, o, pl, w, s4⟩ := r3 a b
    exact ⟨s1, s2, s3, o, pl, h o w, s4⟩

theorem MOut.mono {W W' : Nat → Prop} (h : ∀ o, W o → W' o) {k k' : MS} {t : Nat} {o : Option Nat}
    (M : MOut W k k' t o) : MOut W' k k' t o :=
  ⟨M.kept, M.same, fun r e => (M.ret r e).imp fun _ x => ⟨x.1, x.2.mono h⟩, M.left, M.entered⟩

/-- No thread ends: a resized block belongs to the calling thread. -/
theorem MOut.own {k k' : MS} {t : Nat} {o : Option Nat} (M : MOut (By EndSet.none t) k k' t o) : MOut (fun o => o = t) k k' t o :=
  M.mono fun _ h => h.elim id False.elim

/-- A step of a thread. -/
theorem mstep_ok {Ω : Env} {cl : Prop} {E : EndSet} {C : Config} {k : MS} (hf : C.reallocFactor ≠ 0) (I : MInv Ω cl E k) (t : Nat) :
    (¬ StepMem k t ∧ mstep C k t = .ub) ∨ ∃ k' o, mstep C k t = .ok (k', o) ∧ MInv Ω cl E k' ∧ MOut (By E t) k k' t o := by
  unfold StepMem
  cases hpc : k.pc t with
  | idle =>
    right
    refine ⟨k, none, by unfold mstep; rw [hpc], I, .quiet (fun _ _ _ _ => rfl) (fun _ => Iff.rfl) (fun _ => Iff.rfl)⟩
  | purge j c =>
    right
    obtain ⟨k', e, h⟩ := I.purgeStep (C := C) hpc
    refine ⟨k', none, ?_, h⟩
    unfold mstep
    rw [hpc]
    simp only
    rw [e]
    rfl
  | alloc b n a => exact I.alloc hpc
  | zero r n => exact Or.inr (I.zero hpc)
  | copy r p n => exact Or.inr (I.copy hpc)
  | look p r => exact Or.inr (I.lookStep hpc)
  | lfree i p r => exact Or.inr (I.lfree hpc)
  | push i c r => exact Or.inr (I.pushStep hpc)
  | rlook p b n => exact Or.inr (I.rlook hpc)
  | rlocal i p b n => exact I.rlocal hf hpc

/-- Start. -/
theorem MInv.init {cl : Prop} {E : EndSet} {m : Mem} {R : Regions} {o : Os} (h1 : R.OK) (h2 : ∀ k, R.ent k = 0)
    (h3 : ∀ x, x ≤ MB2 → o.used x = true) :
    MInv Env.none cl E ⟨⟨m, R, Light.init o⟩, [], fun _ => 0, fun _ => 0, fun _ => .idle, ⟨[], [], []⟩, fun _ => none⟩ := by
  refine ⟨PInv.start h1 h2 h3, fun i => ?_, by simp, by simp, fun _ => trivial, fun _ _ => rfl, by simp⟩
  refine ⟨_, Queue.Reach.init _, rfl, rfl, rfl, rfl, rfl, fun e => ?_⟩
  simp [InFlight, Queue.init]

theorem toHand_queued {G : MSpec} {t p : Nat} {l : PBlock} : l ∈ (G.toHand t p).queued ↔ l ∈ G.queued ∧ l.ptr ≠ p := drop_queued

theorem toHand_hand {G : MSpec} {t p : Nat} {x : Nat × PBlock} :
    x ∈ (G.toHand t p).hand ↔ (x.1 = t ∧ x.2 ∈ G.find p) ∨ (x ∈ G.hand ∧ x.2.ptr ≠ p) := by
  show x ∈ (G.find p).map _ ++ (G.drop p).hand ↔ _
  rw [List.mem_append, drop_hand, List.mem_map]
  constructor
  · rintro (⟨l, h, rfl⟩ | h)
    · exact Or.inl ⟨rfl, h⟩
    · exact Or.inr h
  · rintro (⟨h1, h2⟩ | h)
    · exact Or.inl ⟨x.2, h2, by rw [← h1]⟩
    · exact Or.inr h

/-- The start of a call that takes the block at `p`, if any. -/
theorem MInv.take {Ω : Env} {cl : Prop} {E : EndSet} {k : MS} (I : MInv Ω cl E k) {t p : Nat} {op : MCall} {c' : MPc} (ht : t < k.chs.length)
    (hpc : k.pc t = .idle) (hp : p = 0 ∨ ∃ l ∈ k.G.live, l.ptr = p) (p1 : ∀ i, projP i c' = .idle) (p2 : projC c' = .idle)
    (p3 : p ∈ c'.refs)
    (ok : (∀ l ∈ k.G.live, l.ptr = p → Old { k with call := upd k.call t (some ⟨op, k.w.mem, k.G.live⟩), G := k.G.toHand t p }
        ⟨op, k.w.mem, k.G.live⟩ t p l) →
      MPcOK cl E { k with call := upd k.call t (some ⟨op, k.w.mem, k.G.live⟩), G := k.G.toHand t p } t c') :
    MInv Ω cl E (MS.go { k with call := upd k.call t (some ⟨op, k.w.mem, k.G.live⟩), G := k.G.toHand t p } t c') := by
  have N := PInv.nd I.inv
  have hno : ∀ l, (t, l) ∉ k.G.hand := fun l hl => by
    have := I.hand (t, l) hl
    rw [hpc] at this
    cases this
  have hq : ∀ l, (l ∈ k.G.queued ∨ ∃ u, (u, l) ∈ k.G.hand) → l.ptr ≠ p := by
    intro l hl e
    rcases hp with hp | ⟨l', hl', e'⟩
    · rcases hl with hl | ⟨u, hl⟩
      · exact I.ptr_ne (MSpec.queued_all hl) (e.trans hp)
      · exact I.ptr_ne (MSpec.hand_all hl) (e.trans hp)
    · rcases hl with hl | ⟨u, hl⟩
      · exact N.lq l' hl' l hl (e'.trans e.symm)
      · exact N.lh l' hl' _ hl (e'.trans e.symm)
  refine I.local (t := t) (c := c') rfl (fun u hu => upd_ne hu) (Nat.le_refl _) (Or.inl ht)
    (I.inv.perm (k.G.toHand_all t p).symm) rfl rfl (fun i => by rw [p1, hpc]; rfl) (by rw [p2, hpc]; rfl) ?_ ?_ (fun _ _ _ _ => rfl)
    ?_ ?_
  · intro l
    show l ∈ (k.G.toHand t p).queued ↔ _
    rw [toHand_queued]
    exact ⟨fun h => h.1, fun h => ⟨h, hq l (Or.inl h)⟩⟩
  · intro u l hu
    show (u, l) ∈ (k.G.toHand t p).hand ↔ _
    rw [toHand_hand]
    exact ⟨fun h => (h.resolve_left (fun e => hu e.1)).1, fun h => Or.inr ⟨h, hq l (Or.inr ⟨u, h⟩)⟩⟩
  · refine (ok (fun l hl e => ⟨?_, e, ?_, fun _ _ => rfl⟩)).congr Same.go
    · exact toHand_hand.2 (Or.inl ⟨rfl, mem_find.2 ⟨MSpec.live_all hl, e⟩⟩)
    · intro l0 hl0 e0
      exact ptr_eq_of_nodup N.all (MSpec.live_all hl0) (MSpec.live_all hl) (e0.trans e.symm)
  · intro l hl
    have hl : (t, l) ∈ (k.G.toHand t p).hand := hl
    rw [toHand_hand] at hl
    rcases hl with h | h
    · rw [(mem_find.1 h.2).2]; exact p3
    · exact absurd h.1 (hno l)

/-- The start of a call that takes no block. -/
theorem MInv.enter {Ω : Env} {cl : Prop} {E : EndSet} {k : MS} (I : MInv Ω cl E k) {t : Nat} {op : MCall} {c' : MPc} (ht : t < k.chs.length)
    (hpc : k.pc t = .idle) (p1 : ∀ i, projP i c' = .idle) (p2 : projC c' = .idle)
    (ok : MPcOK cl E { k with call := upd k.call t (some ⟨op, k.w.mem, k.G.live⟩) } t c') :
    MInv Ω cl E (MS.go { k with call := upd k.call t (some ⟨op, k.w.mem, k.G.live⟩) } t c') := by
  refine I.local (t := t) (c := c') rfl (fun u hu => upd_ne hu) (Nat.le_refl _) (Or.inl ht)
    I.inv rfl rfl (fun i => by rw [p1, hpc]; rfl) (by rw [p2, hpc]; rfl) (fun _ => Iff.rfl) (fun _ _ _ => Iff.rfl)
    (fun _ _ _ _ => rfl) (ok.congr Same.go) (fun l hl => ?_)
  have := I.hand (t, l) hl
  rw [hpc] at this
  cases this

/-- A call. -/
theorem MInv.call {Ω : Env} {cl : Prop} {E : EndSet} {k : MS} (I : MInv Ω cl E k) {t : Nat} {op : MCall} (ht : t < k.chs.length)
    (hpc : k.pc t = .idle) (hv : MValid k t op) (hE : E.may → NoGrow k op) (hcl : cl → MClean op) : MInv Ω cl E (k.start t op) := by
  cases op with
  | malloc b n =>
    exact I.enter ht hpc (fun _ => rfl) rfl ⟨⟨hv.1, hv.2, hcl⟩, _, upd_same _ _ _, Or.inl rfl⟩
  | calloc b n j =>
    obtain ⟨h1, h2, h3⟩ := hv
    unfold MS.start
    simp only
    rw [Nat.mod_eq_of_lt h2]
    exact I.enter ht hpc (fun _ => rfl) rfl ⟨⟨h1, h3, hcl⟩, _, upd_same _ _ _, _, _, rfl, rfl⟩
  | free p =>
    refine I.take (p := p) (c' := .purge (.free p 0) .idle) ht hpc hv (fun _ => rfl) rfl (by simp [MPc.refs]) (fun h => ?_)
    refine ⟨⟨_, upd_same _ _ _, rfl⟩, ?_⟩
    rcases hv with h0 | ⟨l, hl, e⟩
    · exact Or.inl h0
    · exact Or.inr ⟨by have := I.ptr_ne (MSpec.live_all hl); omega, l, (h l hl e).1, e⟩
  | realloc p b n =>
    obtain ⟨h1, h2, h3⟩ := hv
    unfold MS.start
    simp only
    by_cases hp : p = 0
    · rw [if_pos hp]
      refine I.enter ht hpc (fun _ => rfl) rfl ⟨⟨h1, h2, hcl⟩, _, upd_same _ _ _, Or.inr (by rw [hp])⟩
    rw [if_neg hp]
    obtain ⟨l, hl, e, hs⟩ := h3.resolve_left hp
    by_cases hn : n = 0
    · rw [if_pos hn]
      refine I.take (p := p) (c' := .purge (.free p 0) .idle) ht hpc (Or.inr ⟨l, hl, e⟩) (fun _ => rfl) rfl (by simp [MPc.refs])
        (fun h => ?_)
      exact ⟨⟨_, upd_same _ _ _, Or.inr (Or.inl ⟨hp, hn, rfl⟩)⟩, Or.inr ⟨hp, l, (h l hl e).1, e⟩⟩
    · rw [if_neg hn]
      refine I.take (p := p) (c' := .rlook p b n) ht hpc (Or.inr ⟨l, hl, e⟩) (fun _ => rfl) rfl (by simp [MPc.refs])
        (fun h => ?_)
      refine ⟨l, ⟨h1, h2, hcl⟩, hp, hn, ?_, _, upd_same _ _ _, rfl, h l hl e⟩
      by_cases hE' : E.may
      · exact Or.inr ((hE hE' l hl e).resolve_left hn)
      · exact (hs.resolve_left hn).imp (fun h => ⟨h, hE'⟩) id

/-- A store of the client. -/
theorem MInv.write {Ω : Env} {cl : Prop} {E : EndSet} {k : MS} (I : MInv Ω cl E k) {l : PBlock} {a : Nat} {v : UInt8} (hl : l ∈ k.G.live)
    (ha : l.Byte a) : MInv Ω cl E (k.setMem (fun x => if x = a then v else k.w.mem x)) := by
  have N := PInv.nd I.inv
  have hpc := I.out k.chs.length (Nat.le_refl _)
  obtain ⟨J, K⟩ := store_eff (m' := fun x => if x = a then v else k.w.mem x) I.inv (MSpec.live_all hl) (fun x hx => by
    rw [if_neg (fun e => hx (by rw [e]; exact ha))]
    rfl)
  refine I.local (t := k.chs.length) (c := .idle) ?_ (fun _ _ => rfl) (Nat.le_refl _) (Or.inr rfl) J rfl rfl
    (fun i => by rw [hpc]) (by rw [hpc]) (fun _ => Iff.rfl) (fun _ _ _ => Iff.rfl) ?_ trivial ?_
  · rw [← hpc]; exact (upd_self _ _).symm
  · refine Keeps.frame (Z := fun m => m.ptr ≠ l.ptr) K ?_
    rintro m (hm | ⟨u, _, hm⟩)
    · exact (N.lq l hl m hm).symm
    · exact (N.lh l hl _ hm).symm
  · intro m hm
    have := I.hand (_, m) hm
    simp only at this
    rw [hpc] at this
    cases this

/-- A new thread. -/
theorem MInv.spawn {Ω : Env} {cl : Prop} {E : EndSet} {k : MS} {s : PS} {a z pb : Nat} (I : MInv Ω cl E k)
    (hv : PValid k.ps ⟨[], []⟩ (.spawn a z pb)) (e : posixSpawn k.ps a z pb = .ok s) :
    MInv (Ω.spawn a z pb) cl E (k.spawned s) := by
  obtain ⟨h1, h2, h3, h4⟩ := hv
  obtain ⟨s', e', J, K⟩ := spawn_eff I.inv h1 h2 h3 h4
  obtain rfl : s' = s := Outcome.ok.inj (e'.symm.trans e)
  have hlen : s'.chs.length = k.chs.length + 1 := by
    unfold posixSpawn at e
    obtain ⟨u, _, e⟩ := Outcome.bind_eq_ok e
    rw [← Outcome.ok.inj e]
    simp [PS.reserve, MS.ps]
  have hpc := I.out k.chs.length (Nat.le_refl _)
  have hpc1 := I.out (k.chs.length + 1) (Nat.le_succ _)
  have hown : ∀ l ∈ k.G.all, l.owner < k.chs.length := by
    intro l hl
    exact (I.inv.disj.2 l (by simpa using hl)).2.1
  refine I.next (t := k.chs.length + 1) (c := .idle) k.chs.length ?_ (fun _ _ => rfl) ?_ (Or.inr rfl) J (fun i hi => upd_ne hi)
    (fun i hi => upd_ne hi) (fun i _ => by rw [hpc1]) (fun _ => by rw [hpc1]) (fun _ _ => Iff.rfl) (fun _ _ _ => Iff.rfl)
    (fun u l _ hl => K l (MSpec.hand_all hl) trivial) (fun l hl _ => K l (MSpec.queued_all hl) trivial) trivial ?_ ?_
    (fun l hl _ => I.wide l hl) ?_
  · rw [← hpc1]; exact (upd_self _ _).symm
  · show _ ≤ s'.chs.length
    omega
  · intro m hm
    have := I.hand (_, m) hm
    simp only at this
    rw [hpc1] at this
    cases this
  · obtain ⟨q, R, h⟩ := I.q k.chs.length
    have hno : ∀ f, ¬ InFlight q f := by
      intro f hf
      obtain ⟨l, g1, g2, _⟩ := (h.fl f).1 hf
      have := hown l (MSpec.queued_all g1)
      omega
    have hidle : ∀ t, q.prod t = .idle := by
      intro t
      cases ht : q.prod t with
      | idle => rfl
      | clear e => exact absurd (Or.inl ⟨t, Or.inl ht⟩) (hno e)
      | swap e => exact absurd (Or.inl ⟨t, Or.inr ht⟩) (hno e)
      | link e p => exact absurd (Queue.inFlight_link R ht).1 (hno e)
    refine ⟨_, Queue.Reach.init _, (upd_same _ _ _).symm, (upd_same _ _ _).symm, rfl, ?_, ?_, fun f => ?_⟩
    · funext t
      have := hidle t
      rw [h.prod] at this
      exact this.symm
    · show CPC.idle = projC (k.pc k.chs.length)
      rw [hpc]; rfl
    · constructor
      · intro hf
        simp [InFlight, Queue.init] at hf
      · rintro ⟨l, g1, g2, _⟩
        have := hown l (MSpec.queued_all g1)
        omega
  · intro l hl ho
    have := hown l (MSpec.queued_all hl)
    omega

/-- All the reachable states. -/
theorem MReach.inv {C : Config} {X : MCall → Prop} {cl : Prop} {k : MS} (hf : C.reallocFactor ≠ 0) (h : MReach C X k)
    (hX : cl → ∀ op, X op → MClean op) : ∃ Ω : Env, Ω.blocs = [] ∧ MInv Ω cl EndSet.none k := by
  induction h with
  | init h1 h2 h3 => exact ⟨_, rfl, MInv.init h1 h2 h3⟩
  | call _ ht hpc hv hx ih =>
    obtain ⟨Ω, hb, ih⟩ := ih
    exact ⟨Ω, hb, ih.call ht hpc hv False.elim (fun c => hX c _ hx)⟩
  | step _ e ih =>
    obtain ⟨Ω, hb, ih⟩ := ih
    rcases mstep_ok hf ih _ with ⟨_, e'⟩ | ⟨k', o, e', I', _⟩
    · rw [e'] at e; cases e
    · rw [e'] at e
      obtain ⟨rfl, rfl⟩ := Prod.mk.inj (Outcome.ok.inj e)
      exact ⟨Ω, hb, I'⟩
  | write _ hl ha ih =>
    obtain ⟨Ω, hb, ih⟩ := ih
    exact ⟨Ω, hb, ih.write hl ha⟩
  | spawn _ hv e ih =>
    obtain ⟨Ω, hb, ih⟩ := ih
    exact ⟨Ω.spawn _ _ _, hb, ih.spawn hv e⟩

end MpcAlloc
