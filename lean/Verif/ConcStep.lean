import Verif.ConcInv

/-
The steps of the threads keep the invariant.
-/

namespace MpcAlloc

open Queue (CPC PPC upd upd_same upd_ne InFlight)

theorem drop_live {G : MSpec} {p : Nat} {l : PBlock} : l ∈ (G.drop p).live ↔ l ∈ G.live ∧ l.ptr ≠ p := by
  simp [MSpec.drop]

theorem drop_hand {G : MSpec} {p : Nat} {x : Nat × PBlock} : x ∈ (G.drop p).hand ↔ x ∈ G.hand ∧ x.2.ptr ≠ p := by
  simp [MSpec.drop]

theorem drop_queued {G : MSpec} {p : Nat} {l : PBlock} : l ∈ (G.drop p).queued ↔ l ∈ G.queued ∧ l.ptr ≠ p := by
  simp [MSpec.drop]

theorem mem_find {G : MSpec} {p : Nat} {l : PBlock} : l ∈ G.find p ↔ l ∈ G.all ∧ l.ptr = p := by
  simp [MSpec.find]

/-- A step that ends no call and leaves the queues as they are. -/
theorem MOut.quiet {W : Nat → Prop} {k k' : MS} {t : Nat} (kept : ∀ l ∈ k.G.live, ∀ x, l.Byte x → k'.w.mem x = k.w.mem x)
    (same : ∀ l, l ∈ k'.G.live ↔ l ∈ k.G.live) (queue : ∀ l, l ∈ k'.G.queued ↔ l ∈ k.G.queued) : MOut W k k' t none :=
  ⟨kept, fun _ => same, fun _ h => absurd h (by simp), fun l h h' => absurd ((queue l).2 h) h', fun l h h' => absurd ((queue l).1 h) h'⟩

theorem MInv.ptr_ne {Ω : Env} {cl : Prop} {E : EndSet} {k : MS} (I : MInv Ω cl E k) {l : PBlock} (h : l ∈ k.G.all) : l.ptr ≠ 0 :=
  PInv.ptr I.inv h

/-- The end of a call. -/
theorem MInv.finish {Ω : Env} {cl : Prop} {E : EndSet} {k k1 : MS} {t r : Nat} (I : MInv Ω cl E (k1.go t (.push 0 .idle r)))
    (ht : t < k1.chs.length) (hlive : ∀ l, l ∈ k1.G.live ↔ l ∈ k.G.live) (hcall : k1.call t = k.call t)
    (kept : ∀ l ∈ k.G.live, ∀ x, l.Byte x → k1.w.mem x = k.w.mem x) (queue : ∀ l, l ∈ k1.G.queued ↔ l ∈ k.G.queued) :
    MInv Ω cl E (k1.ret t r).1 ∧ MOut (By E t) k (k1.ret t r).1 t (k1.ret t r).2 := by
  have N : Nd k1.G := PInv.nd I.inv
  have hall : ∀ l ∈ k1.G.all, l.ptr ≠ 0 := fun l hl => I.ptr_ne hl
  have hok : RetOK E (k1.go t (.push 0 .idle r)) t r := by
    have := I.th t
    simp only [MS.go, upd_same] at this
    exact this
  have hhand : ∀ l, (t, l) ∈ k1.G.hand → l.ptr = r := by
    intro l hl
    have := I.hand (t, l) hl
    simp only [MS.go, upd_same, MPc.refs, List.mem_singleton] at this
    exact this
  have hq : ∀ l ∈ k1.G.queued, l.ptr ≠ r := by
    intro l hl e
    obtain ⟨c, _, h2⟩ := hok
    have h0 := hall l (MSpec.queued_all hl)
    have hn : ∀ b n, New (k1.go t (.push 0 .idle r)) t r b n → False := fun b n h => N.hq _ h.2.1 l hl e.symm
    split at h2
    · exact hn _ _ h2
    · exact hn _ _ h2.1
    · exact h0 (e.trans h2)
    · rcases h2 with ⟨_, h3⟩ | ⟨_, _, h3⟩ | ⟨_, _, _, l', h4, h5, _⟩
      · exact hn _ _ h3
      · exact h0 (e.trans h3)
      · exact N.hq _ h4 l hl (h5.trans e.symm)
  have hlr : ∀ l ∈ k1.G.live, l.ptr ≠ r := by
    intro l hl e
    obtain ⟨c, _, h2⟩ := hok
    have h0 := hall l (MSpec.live_all hl)
    have hn : ∀ b n, New (k1.go t (.push 0 .idle r)) t r b n → False := fun b n h => N.lh l hl _ h.2.1 e
    split at h2
    · exact hn _ _ h2
    · exact hn _ _ h2.1
    · exact h0 (e.trans h2)
    · rcases h2 with ⟨_, h3⟩ | ⟨_, _, h3⟩ | ⟨_, _, _, l', h4, h5, _⟩
      · exact hn _ _ h3
      · exact h0 (e.trans h3)
      · exact N.lh l hl _ h4 (e.trans h5.symm)
  have ho : ∀ u l, u ≠ t → (u, l) ∈ k1.G.hand → l.ptr ≠ r := by
    intro u l hu hl e
    obtain ⟨c, _, h2⟩ := hok
    have h0 := hall l (MSpec.hand_all hl)
    have hn : ∀ b n, New (k1.go t (.push 0 .idle r)) t r b n → False := fun b n h =>
      hu (Prod.mk.inj (N.hand _ hl _ h.2.1 e)).1
    split at h2
    · exact hn _ _ h2
    · exact hn _ _ h2.1
    · exact h0 (e.trans h2)
    · rcases h2 with ⟨_, h3⟩ | ⟨_, _, h3⟩ | ⟨_, _, _, l', h4, h5, _⟩
      · exact hn _ _ h3
      · exact h0 (e.trans h3)
      · exact hu (Prod.mk.inj (N.hand _ hl _ h4 (e.trans h5.symm))).1
  constructor
  · refine I.local (t := t) (c := .idle) (by simp only [MS.ret, MS.go]; rw [upd_upd]) (fun u _ => rfl) (Nat.le_refl _)
      (Or.inr rfl) (I.inv.perm (k1.G.toLive_all r).symm) rfl rfl ?_ ?_ ?_ ?_ (fun l _ x _ => rfl) trivial ?_
    · intro i; simp only [MS.go, upd_same, projP]; split <;> rfl
    · simp only [MS.go, upd_same, projC]
    · intro l
      show l ∈ (k1.G.drop r).queued ↔ _
      rw [drop_queued]
      exact ⟨fun h => h.1, fun h => ⟨h, hq l h⟩⟩
    · intro u l hu
      show (u, l) ∈ (k1.G.drop r).hand ↔ _
      rw [drop_hand]
      exact ⟨fun h => h.1, fun h => ⟨h, ho u l hu h⟩⟩
    · intro l hl
      have hl' : (t, l) ∈ (k1.G.drop r).hand := hl
      rw [drop_hand] at hl'
      exact absurd (hhand l hl'.1) hl'.2
  · have hmem : ∀ m, m ∈ ((k1.ret t r).1).G.live ↔ m ∈ k1.G.find r ∨ m ∈ k.G.live := by
      intro m
      show m ∈ k1.G.find r ++ (k1.G.drop r).live ↔ _
      rw [List.mem_append, drop_live, ← hlive]
      exact or_congr Iff.rfl ⟨fun h => h.1, fun h => ⟨h, hlr m h⟩⟩
    have hfind : ∀ l, (t, l) ∈ k1.G.hand → l.ptr = r → ∀ m, m ∈ k1.G.find r ↔ m = l := by
      intro l hl e m
      rw [← e]
      exact N.find (MSpec.hand_all hl) m
    have hzero : r = 0 → ∀ m, m ∉ k1.G.find r := by
      intro h m hm
      rw [mem_find, h] at hm
      exact hall m hm.1 hm.2
    have queue' : ∀ l, l ∈ ((k1.ret t r).1).G.queued ↔ l ∈ k.G.queued := by
      intro l
      show l ∈ (k1.G.drop r).queued ↔ _
      rw [drop_queued, ← queue]
      exact ⟨fun h => h.1, fun h => ⟨h, hq l h⟩⟩
    refine ⟨kept, fun h => absurd h (by simp [MS.ret]), fun r' h => ?_, fun l h h' => absurd ((queue' l).2 h) h',
      fun l h h' => absurd ((queue' l).1 h) h'⟩
    obtain rfl : r = r' := Option.some.inj h
    obtain ⟨c, h1, h2⟩ := hok
    refine ⟨c, by rw [← hcall]; exact h1, ?_⟩
    have new : ∀ b n, New (k1.go t (.push 0 .idle r)) t r b n → r ≠ 0 ∧ (1 < b → b ∣ r) ∧ (b ≤ 1 → 16 ∣ r) ∧
        ∀ l, l ∈ ((k1.ret t r).1).G.live ↔ l = ⟨t, r, n, decide (b ≤ 1)⟩ ∨ l ∈ k.G.live := by
      intro b n hn
      refine ⟨hn.1, hn.2.2.1, hn.2.2.2, fun l => ?_⟩
      rw [hmem, hfind _ hn.2.1 rfl]
    have none : r = 0 → ∀ l, l ∈ ((k1.ret t r).1).G.live ↔ l ∈ k.G.live := by
      intro h l
      rw [hmem]
      exact ⟨fun h' => h'.resolve_left (hzero h l), Or.inr⟩
    unfold Returned
    split at h2
    · rename_i e; rw [e]; exact new _ _ h2
    · rename_i e; rw [e]
      have := new _ _ h2.1
      exact ⟨this.1, this.2.1, this.2.2.1, h2.2, this.2.2.2⟩
    · rename_i e; rw [e]; exact none h2
    · rename_i e; rw [e]
      rcases h2 with ⟨h3, h4⟩ | ⟨h3, h4, h5⟩ | ⟨h3, h4, h5, l, l1, l2, l3, l4, l5, l6⟩
      · exact ⟨fun _ => new _ _ h4, fun h => absurd h3 h, fun h => absurd h3 h⟩
      · exact ⟨fun h => absurd h h3, fun _ _ => ⟨h5, none h5⟩, fun _ h => absurd h4 h⟩
      · refine ⟨fun h => absurd h h3, fun _ h => absurd h h4, fun _ _ => ⟨h5, l5, l6, l.owner, l.plain, l4, fun m => ?_⟩⟩
        rw [hmem, hfind l l1 l2]
        obtain ⟨lo, lp, ll, lpl⟩ := l
        simp only at l2 l3
        subst l2 l3
        rfl

/-- A thread that is in a call exists. -/
theorem MInv.lt {Ω : Env} {cl : Prop} {E : EndSet} {k : MS} (I : MInv Ω cl E k) {t : Nat} (h : k.pc t ≠ .idle) : t < k.chs.length := by
  by_contra hn
  exact h (I.out t (by omega))

/-- Blocks kept by an operation: frame of the step. -/
theorem Keeps.frame {k k' : MS} {t : Nat} {Z : PBlock → Prop} (h : Keeps k.ps k'.ps ⟨k.G.all, []⟩ Z)
    (hz : ∀ l, (l ∈ k.G.queued ∨ ∃ u, u ≠ t ∧ (u, l) ∈ k.G.hand) → Z l) : MFrame k k' t := by
  intro l hl x hx
  refine h l ?_ (hz l hl) x hx
  rcases hl with hl | ⟨u, _, hl⟩
  · exact MSpec.queued_all hl
  · exact MSpec.hand_all hl

/-- A block in the hands of `t` is not one of the others. -/
theorem Nd.frame {G : MSpec} (N : Nd G) {t : Nat} {l : PBlock} (h : (t, l) ∈ G.hand) :
    ∀ m, (m ∈ G.queued ∨ ∃ u, u ≠ t ∧ (u, m) ∈ G.hand) → m.ptr ≠ l.ptr := by
  rintro m (hm | ⟨u, hu, hm⟩) e
  · exact N.hq _ h m hm e.symm
  · exact hu (Prod.mk.inj (N.hand _ hm _ h e)).1

/-- Positions in the purge and after it. -/
def Job.Pos (j : Job) (c : MPc) : Prop := c = j.next ∨ ∃ d, c = .purge j d

theorem Job.Pos.pcOK {j : Job} {c c' : MPc} (h : j.Pos c) (h' : j.Pos c') {cl : Prop} {E : EndSet} {k : MS} {t : Nat}
    (H : MPcOK cl E k t c) : MPcOK cl E k t c' := by
  rcases h with rfl | ⟨d, rfl⟩ <;> rcases h' with rfl | ⟨d', rfl⟩ <;> cases j <;> exact H

theorem Job.Pos.refs {j : Job} {c c' : MPc} (h : j.Pos c) (h' : j.Pos c') : c'.refs = c.refs := by
  rcases h with rfl | ⟨d, rfl⟩ <;> rcases h' with rfl | ⟨d', rfl⟩ <;> rcases j with ⟨b, n, (_ | _ | _)⟩ | _ <;> rfl

theorem Job.Pos.proj {j : Job} {c : MPc} (h : j.Pos c) (i : Nat) : projP i c = .idle := by
  rcases h with rfl | ⟨d, rfl⟩
  · cases j <;> rfl
  · rfl

theorem Job.projC_next (j : Job) : projC j.next = .idle := by cases j <;> rfl

/-- A step of the purge that is not the free of an entry. -/
theorem MInv.purge {Ω : Env} {cl : Prop} {E : EndSet} {k k' : MS} (I : MInv Ω cl E k) {t : Nat} {j : Job} {c : CPC} {c' : MPc}
    (hpc : k.pc t = .purge j c) (hnd : ∀ cur nxt, c ≠ .dfree cur nxt) (hc' : j.Pos c')
    (hps : k'.ps = k.ps) (hG : k'.G = k.G) (hcall : k'.call = k.call) (hp : k'.pc = upd k.pc t c')
    (hhead : ∀ i, i ≠ t → k'.head i = k.head i) (htail : ∀ i, i ≠ t → k'.tail i = k.tail i)
    (hq : ∀ q, Queue.Reach q → QRel k t q → ∃ q', Queue.cstep q = .ok q' ∧ q'.head = k'.head t ∧ q'.tail = k'.tail t ∧
      q'.cons = projC c' ∧ q'.prod = q.prod ∧ q'.next = q.next) :
    MInv Ω cl E k' := by
  have ht := I.lt (t := t) (by rw [hpc]; simp)
  have hw : k'.w = k.w := congrArg PS.w hps
  have hchs : k'.chs = k.chs := congrArg PS.chs hps
  have hpos : j.Pos (k.pc t) := Or.inr ⟨c, hpc⟩
  refine I.next t hp (fun u _ => by rw [hcall]) (by rw [hchs]) (Or.inl (by rw [hchs]; exact ht)) (by rw [hps, hG]; exact I.inv)
    hhead htail (fun i _ => by rw [hc'.proj, hpos.proj]) (fun h => absurd rfl h) (fun l _ => by rw [hG]) (fun u l _ => by rw [hG])
    (fun u l _ _ x _ => by rw [hw]) (fun l _ _ x _ => by rw [hw]) ?_ ?_ ?_ (fun l hl _ => I.wide l (by rw [← hG]; exact hl)) ?_
  · refine hpos.pcOK hc' ((I.th t).congr ⟨by rw [hcall], fun l hl => by rw [hG]; exact hl, fun l _ x _ => by rw [hw]⟩)
  · intro l hl
    rw [hpos.refs hc']
    exact I.hand (t, l) (by rw [← hG]; exact hl)
  · obtain ⟨q, R, h⟩ := I.q t
    obtain ⟨q', e, h1, h2, h3, h4, h5⟩ := hq q R h
    have hfl := Queue.inFlight_cons e (fun cur nxt hh => hnd cur nxt (by rw [← hh, h.cons, hpc]; rfl))
    refine QRel.put (R.cons e) h1 h2 ?_ ?_ ?_ ?_
    · rw [h4, h.prod, hp, proj_upd, hc'.proj, ← hpos.proj t]
      exact (upd_self (fun u => projP t (k.pc u)) t).symm
    · rw [h3, hp, upd_same]
    · intro f
      rw [hfl, h.fl, hG]
    · intro f _
      rw [h5, h.next]
      unfold MS.nxt
      rw [hw]
  · intro l hl hi hcl
    rw [hw]
    refine I.ptr l (by rw [← hG]; exact hl) (fun u => ?_)
    rw [hi]
    have := hcl u
    rw [hp] at this
    by_cases hu : u = t
    · subst hu; rw [upd_same, hc'.proj] at this; rw [hpos.proj]; exact this
    · rw [upd_ne hu] at this; exact this

/-- The free of an entry by the purge. -/
theorem MInv.dfree {Ω : Env} {cl : Prop} {E : EndSet} {C : Config} {k : MS} (I : MInv Ω cl E k) {t cur nxt : Nat} {j : Job}
    (hpc : k.pc t = .purge j (.dfree cur nxt)) :
    ∃ k', purgeStep C k t j (.dfree cur nxt) = .ok k' ∧ MInv Ω cl E k' ∧ MOut W k k' t none := by
  have ht := I.lt (t := t) (by rw [hpc]; simp)
  obtain ⟨q, R, h⟩ := I.q t
  have hcons : q.cons = .dfree cur nxt := by rw [h.cons, hpc]; rfl
  obtain ⟨f1, f2, f3⟩ := Queue.inFlight_dfree R hcons
  obtain ⟨l, hl, hlo, hlp⟩ := (h.fl cur).1 f1
  have N : Nd k.G := PInv.nd I.inv
  have hptr : readLE k.w.mem (cur + 8) 8 = cur := by
    rw [← hlp]
    refine I.ptr l hl (fun u hu => ?_)
    have := f2 u
    rw [h.prod, ← hlp, ← hlo] at this
    exact this hu
  obtain ⟨c, hc⟩ : ∃ c, k.ps.chs[l.owner]? = some c := by
    rw [hlo]; exact ⟨_, List.getElem?_eq_getElem (show t < k.ps.chs.length from ht)⟩
  obtain ⟨u, e, I', K⟩ := free_eff (C := C) I.inv (MSpec.queued_all hl) hc
  rw [hlo] at I' K hc
  rw [hlp] at I' K e
  refine ⟨{ k.setPs (k.ps.put t u) with G := k.G.drop cur }.go t (.purge j (.dread nxt)), ?_, ?_, ?_⟩
  · unfold purgeStep
    simp only
    rw [hptr, PS.loc_eq hc, Outcome.ok_bind, e, Outcome.ok_bind]
    rfl
  · have hZ : ∀ m, (m ∈ k.G.queued ∧ m.owner ≠ t ∨ ∃ u, (u, m) ∈ k.G.hand) → m.ptr ≠ cur := by
      rintro m (⟨hm, ho⟩ | ⟨v, hm⟩) e
      · have := N.queued m hm l hl (by rw [e, hlp])
        exact ho (by rw [this]; exact hlo)
      · exact N.hq _ hm l hl (by rw [hlp]; exact e)
    have hpos : j.Pos (k.pc t) := Or.inr ⟨_, hpc⟩
    have hpos' : j.Pos (.purge j (.dread nxt)) := Or.inr ⟨_, rfl⟩
    refine I.next t rfl (fun u _ => rfl) (by simp [MS.setPs, MS.go, PS.put, MS.ps])
      (Or.inl (by simpa [MS.setPs, MS.go, PS.put, MS.ps] using ht)) ?_ (fun _ _ => rfl) (fun _ _ => rfl)
      (fun i _ => by rw [hpos.proj, hpos'.proj]) (fun h => absurd rfl h) ?_ ?_ ?_ ?_ ?_ ?_ ?_ ?_ ?_
    · refine PInv.perm (M := k.G.all.filter (fun l => decide (l.ptr ≠ cur))) ?_ (by
        show List.Perm _ (k.G.drop cur).all
        rw [k.G.drop_all])
      have hd : (PSpec.del ⟨k.G.all, []⟩ t cur) = ⟨k.G.all.filter (fun l => decide (l.ptr ≠ cur)), []⟩ := by
        unfold PSpec.del
        simp only [List.append_nil]
        congr 1
        rw [List.filter_eq_nil_iff]
        intro m hm h
        simp only [decide_eq_true_eq] at h
        have := ptr_eq_of_nodup N.all hm (MSpec.queued_all hl) (by rw [h.1, hlp])
        exact h.2 (by rw [this]; exact hlo)
      rw [hd] at I'
      exact I'
    · intro m ho
      show m ∈ (k.G.drop cur).queued ↔ _
      rw [drop_queued]
      exact ⟨fun h => h.1, fun h => ⟨h, hZ m (Or.inl ⟨h, ho⟩)⟩⟩
    · intro v m _
      show (v, m) ∈ (k.G.drop cur).hand ↔ _
      rw [drop_hand]
      exact ⟨fun h => h.1, fun h => ⟨h, hZ m (Or.inr ⟨v, h⟩)⟩⟩
    · intro v m _ hm x hx
      exact K m (MSpec.hand_all hm) (hZ m (Or.inr ⟨v, hm⟩)) x hx
    · intro m hm ho x hx
      exact K m (MSpec.queued_all hm) (hZ m (Or.inl ⟨hm, ho⟩)) x hx
    · refine hpos.pcOK hpos' ((I.th t).congr ⟨rfl, fun m hm => drop_hand.2 ⟨hm, hZ m (Or.inr ⟨t, hm⟩)⟩, fun m hm x hx =>
        K m (MSpec.hand_all hm) (hZ m (Or.inr ⟨t, hm⟩)) x hx⟩)
    · intro m hm
      rw [hpos.refs hpos']
      exact I.hand (t, m) (drop_hand.1 hm).1
    · have hs : Queue.cstep q = .ok { q with cons := .dread nxt, out := q.out ++ [cur] } := by
        unfold Queue.cstep; rw [hcons]
      refine QRel.put (R.cons hs) h.head h.tail ?_ ?_ ?_ ?_
      · show q.prod = _
        rw [h.prod]
        show _ = fun v => projP t (upd k.pc t _ v)
        rw [proj_upd, hpos'.proj, ← hpos.proj t]
        exact (upd_self (fun u => projP t (k.pc u)) t).symm
      · show CPC.dread nxt = projC (upd k.pc t _ t)
        rw [upd_same]; rfl
      · intro f
        rw [f3, h.fl]
        show _ ↔ ∃ m ∈ (k.G.drop cur).queued, _
        constructor
        · rintro ⟨⟨m, h1, h2, h3⟩, hne⟩
          exact ⟨m, drop_queued.2 ⟨h1, by rw [h3]; exact hne⟩, h2, h3⟩
        · rintro ⟨m, h1, h2, h3⟩
          rw [drop_queued] at h1
          exact ⟨⟨m, h1.1, h2, h3⟩, by rw [← h3]; exact h1.2⟩
      · intro f hf
        rw [f3, h.fl] at hf
        obtain ⟨⟨m, h1, h2, rfl⟩, hne⟩ := hf
        show _ = q.next m.ptr
        rw [h.next]
        have hwd := I.wide m h1
        exact readLE_congr (fun x a b => K m (MSpec.queued_all h1) hne x ⟨a, by omega⟩)
    · intro m hm _
      exact I.wide m (drop_queued.1 hm).1
    · intro m hm ho hcl
      have hm' := drop_queued.1 hm
      have hwd := I.wide m hm'.1
      show readLE (k.ps.put t u).w.mem (m.ptr + 8) 8 = m.ptr
      rw [readLE_congr (m := k.w.mem) (fun x a b => K m (MSpec.queued_all hm'.1) hm'.2 x ⟨by omega, by omega⟩)]
      refine I.ptr m hm'.1 (fun v => ?_)
      rw [ho]
      have := hcl v
      by_cases hv : v = t
      · subst hv; rw [hpos.proj]; simp
      · simp only [MS.go, upd_ne hv] at this; exact this
  · refine ⟨fun m hm x hx => K m (MSpec.live_all hm) ?_ x hx, fun _ m => ?_, fun r h => absurd h (by simp), ?_, ?_⟩
    · rw [← hlp]; exact N.lq m hm l hl
    · show m ∈ (k.G.drop cur).live ↔ _
      rw [drop_live]
      exact ⟨fun h => h.1, fun h => ⟨h, by rw [← hlp]; exact N.lq m h l hl⟩⟩
    · intro m hm hm'
      have e : m.ptr = cur := by
        by_contra h
        exact hm' (drop_queued.2 ⟨hm, h⟩)
      rw [N.queued m hm l hl (by rw [e, hlp])]
      exact ⟨hlo, j, nxt, by rw [hpc, hlp]⟩
    · intro m hm hm'
      exact absurd (drop_queued.1 hm).1 hm'

/-- The purge. -/
theorem MInv.purgeStep {Ω : Env} {cl : Prop} {E : EndSet} {C : Config} {k : MS} (I : MInv Ω cl E k) {t : Nat} {j : Job} {c : CPC}
    (hpc : k.pc t = .purge j c) :
    ∃ k', MpcAlloc.purgeStep C k t j c = .ok k' ∧ MInv Ω cl E k' ∧ MOut W k k' t none := by
  have out : ∀ k' : MS, k'.w = k.w → k'.G = k.G → MOut W k k' t none := fun k' h1 h2 =>
    .quiet (fun l _ x _ => by rw [h1]) (fun l => by rw [h2]) (fun l => by rw [h2])
  have hcons : ∀ q, QRel k t q → q.cons = c := fun q h => by rw [h.cons, hpc]; rfl
  cases c with
  | idle =>
    unfold MpcAlloc.purgeStep
    simp only
    by_cases h0 : k.head t = 0
    · rw [if_pos h0]
      refine ⟨_, rfl, I.purge hpc (by simp) (c' := j.next) (Or.inl rfl) rfl rfl rfl rfl (fun _ _ => rfl) (fun _ _ => rfl) ?_,
        out _ rfl rfl⟩
      intro q R h
      refine ⟨q, ?_, h.head, h.tail, ?_, rfl, rfl⟩
      · unfold Queue.cstep; rw [hcons q h]; simp only; rw [h.head, if_pos h0]
      · rw [j.projC_next, hcons q h]
    · rw [if_neg h0]
      refine ⟨_, rfl, I.purge hpc (by simp) (c' := .purge j .load) (Or.inr ⟨_, rfl⟩) rfl rfl rfl rfl (fun _ _ => rfl)
        (fun _ _ => rfl) ?_, out _ rfl rfl⟩
      intro q R h
      refine ⟨{ q with cons := .load }, ?_, ?_⟩
      · unfold Queue.cstep; rw [hcons q h]; simp only; rw [h.head, if_neg h0]
      · exact ⟨h.head, h.tail, rfl, rfl, rfl⟩
  | load =>
    refine ⟨_, rfl, I.purge hpc (by simp) (c' := .purge j _) (Or.inr ⟨_, rfl⟩) rfl rfl rfl rfl (fun _ _ => rfl)
      (fun _ _ => rfl) ?_, out _ rfl rfl⟩
    intro q R h
    refine ⟨{ q with cons := if q.head = 0 then .dread 0 else .clearHead q.head }, ?_, ?_⟩
    · unfold Queue.cstep; rw [hcons q h]
    · exact ⟨h.head, h.tail, by simp only [projC]; rw [h.head], rfl, rfl⟩
  | clearHead hd =>
    refine ⟨_, rfl, I.purge hpc (by simp) (c' := .purge j _) (Or.inr ⟨_, rfl⟩) rfl rfl rfl rfl
      (fun i hi => upd_ne hi) (fun _ _ => rfl) ?_, out _ rfl rfl⟩
    intro q R h
    refine ⟨{ q with head := 0, cons := .swapTail hd }, ?_, ?_⟩
    · unfold Queue.cstep; rw [hcons q h]
    · exact ⟨(upd_same _ _ _).symm, h.tail, rfl, rfl, rfl⟩
  | swapTail hd =>
    refine ⟨_, rfl, I.purge hpc (by simp) (c' := .purge j _) (Or.inr ⟨_, rfl⟩) rfl rfl rfl rfl
      (fun _ _ => rfl) (fun i hi => upd_ne hi) ?_, out _ rfl rfl⟩
    intro q R h
    refine ⟨{ q with tail := 0, cons := .walk hd q.tail hd }, ?_, ?_⟩
    · unfold Queue.cstep; rw [hcons q h]
    · exact ⟨h.head, (upd_same _ _ _).symm, by simp only [projC]; rw [h.tail], rfl, rfl⟩
  | walk hd tl cur =>
    obtain ⟨q0, R0, h0⟩ := I.q t
    obtain ⟨_, _, _, J⟩ := R0.inv
    obtain ⟨q1, _, _, e1, _⟩ := Queue.inv_cstep J
    unfold MpcAlloc.purgeStep
    simp only
    by_cases ht : cur = tl
    · rw [if_pos ht]
      refine ⟨_, rfl, I.purge hpc (by simp) (c' := .purge j (.dread hd)) (Or.inr ⟨_, rfl⟩) rfl rfl rfl rfl
        (fun _ _ => rfl) (fun _ _ => rfl) ?_, out _ rfl rfl⟩
      intro q R h
      refine ⟨{ q with cons := .dread hd }, ?_, ?_⟩
      · unfold Queue.cstep; rw [hcons q h]; simp only; rw [if_pos ht]
      · exact ⟨h.head, h.tail, rfl, rfl, rfl⟩
    · rw [if_neg ht]
      have hz : cur ≠ 0 := by
        intro hz
        unfold Queue.cstep at e1
        rw [hcons q0 h0] at e1
        simp only at e1
        rw [if_neg ht, if_pos hz] at e1
        cases e1
      rw [if_neg hz]
      by_cases hn : k.nxt cur = 0
      · rw [if_pos hn]
        exact ⟨_, rfl, I, out _ rfl rfl⟩
      · rw [if_neg hn]
        refine ⟨_, rfl, I.purge hpc (by simp) (c' := .purge j (.adv hd tl cur)) (Or.inr ⟨_, rfl⟩) rfl rfl rfl rfl
          (fun _ _ => rfl) (fun _ _ => rfl) ?_, out _ rfl rfl⟩
        intro q R h
        refine ⟨{ q with cons := .adv hd tl cur }, ?_, ?_⟩
        · unfold Queue.cstep; rw [hcons q h]; simp only; rw [if_neg ht, if_neg hz, if_neg (by rw [h.next]; exact hn)]
        · exact ⟨h.head, h.tail, rfl, rfl, rfl⟩
  | adv hd tl cur =>
    obtain ⟨q0, R0, h0⟩ := I.q t
    obtain ⟨_, _, _, J⟩ := R0.inv
    obtain ⟨q1, _, _, e1, _⟩ := Queue.inv_cstep J
    have hz : cur ≠ 0 := by
      intro hz
      unfold Queue.cstep at e1
      rw [hcons q0 h0] at e1
      simp only at e1
      rw [if_pos hz] at e1
      cases e1
    unfold MpcAlloc.purgeStep
    simp only
    rw [if_neg hz]
    refine ⟨_, rfl, I.purge hpc (by simp) (c' := .purge j (.walk hd tl (k.nxt cur))) (Or.inr ⟨_, rfl⟩) rfl rfl rfl rfl
      (fun _ _ => rfl) (fun _ _ => rfl) ?_, out _ rfl rfl⟩
    intro q R h
    refine ⟨{ q with cons := .walk hd tl (q.next cur) }, ?_, ?_⟩
    · unfold Queue.cstep; rw [hcons q h]; simp only; rw [if_neg hz]
    · exact ⟨h.head, h.tail, by simp only [projC]; rw [h.next], rfl, rfl⟩
  | dread cur =>
    unfold MpcAlloc.purgeStep
    simp only
    by_cases h0 : cur = 0
    · rw [if_pos h0]
      refine ⟨_, rfl, I.purge hpc (by simp) (c' := j.next) (Or.inl rfl) rfl rfl rfl rfl (fun _ _ => rfl) (fun _ _ => rfl) ?_,
        out _ rfl rfl⟩
      intro q R h
      refine ⟨{ q with cons := .idle }, ?_, ?_⟩
      · unfold Queue.cstep; rw [hcons q h]; simp only; rw [if_pos h0]
      · exact ⟨h.head, h.tail, j.projC_next.symm, rfl, rfl⟩
    · rw [if_neg h0]
      refine ⟨_, rfl, I.purge hpc (by simp) (c' := .purge j _) (Or.inr ⟨_, rfl⟩) rfl rfl rfl rfl (fun _ _ => rfl)
        (fun _ _ => rfl) ?_, out _ rfl rfl⟩
      intro q R h
      refine ⟨{ q with cons := .dfree cur (q.next cur) }, ?_, ?_⟩
      · unfold Queue.cstep; rw [hcons q h]; simp only; rw [if_neg h0]
      · exact ⟨h.head, h.tail, by simp only [projC]; rw [h.next], rfl, rfl⟩
  | dfree cur nxt => exact I.dfree hpc

end MpcAlloc
