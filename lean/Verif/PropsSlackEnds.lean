import Verif.PropsSlackConc
import Verif.PropsCacheEnds

/-!
C83 when threads end while the others run: the process of ConcEnds.lean. The chunks of the blocks of threads that have ended
are bounded too.
-/

namespace MpcAlloc.ConcEnds

open Queue (CPC PPC upd upd_same upd_ne)

section
variable {Ω : Env} {C : Config} {w : Prop} {M : Nat} {cl : Prop} {k K' : MS} {μ : Tags}

/-- A free in a chain with a tag has the same effect on the memory. -/
theorem free_untag (I : Inv Ω cl k μ) {l : PBlock} {c : Chain} {v : CS Light} (hl : l ∈ k.G.all)
    (hc : k.ps.chs[l.owner]? = some c) (e : chainFree (lightSource C) C (CS.tag ⟨k.ps.w, c⟩ (μ l.owner)) l.ptr = .ok v) :
    ∃ u, chainFree (lightSource C) C ⟨k.ps.w, c⟩ l.ptr = .ok u ∧ v.w = u.w := by
  obtain ⟨u, e1, _⟩ := free_eff (C := C) I.m.inv hl hc
  have J := I.m.inv.chain hc
  refine ⟨u, e1, ?_⟩
  rcases chainFree_tag (m := μ l.owner) J.1 (I.alive hl) e1 (J.2.2.2 l hl rfl) with ⟨_, _, _, h4⟩ | ⟨_, _, _, h4⟩ | ⟨_, h4⟩
  · rw [h4] at e; cases e
  · rw [← Outcome.ok.inj (h4.symm.trans e)]; rfl
  · rw [← Outcome.ok.inj (h4.symm.trans e)]; rfl

/-- A free in a chain with a tag. -/
theorem slim_free (h : MSlim C w M k) (I : Inv Ω cl k μ) {l : PBlock} {c : Chain} {v : CS Light} (hl : l ∈ k.G.all)
    (hc : k.ps.chs[l.owner]? = some c) (e : chainFree (lightSource C) C (CS.tag ⟨k.ps.w, c⟩ (μ l.owner)) l.ptr = .ok v) :
    MSlim C w M { (k.tags μ).setPs ((k.ps.tags μ).put l.owner v) with G := k.G.drop l.ptr } := by
  obtain ⟨u, e1, hv⟩ := free_untag I hl hc e
  have h1 : MSlim C w M { k.setPs (k.ps.put l.owner u) with G := k.G.drop l.ptr } := h.free I.m.inv hl hc e1
  intro m hm hp
  have := h1 m hm hp
  show Slack C _ _ (chunkBytes v.w.mem m.ptr)
  rw [hv]
  exact this

theorem slim_purge (h : MSlim C w M k) (I : Inv Ω cl k μ) {t : Nat} {j : Job} {c : CPC} (hpc : k.pc t = .purge j c)
    (e : purgeStep C (k.tags μ) t j c = .ok K') : MSlim C w M K' := by
  by_cases hd : ∃ cur nxt, c = .dfree cur nxt
  · obtain ⟨cur, nxt, rfl⟩ := hd
    obtain ⟨q, R, hq⟩ := I.m.q t
    have hcons : q.cons = .dfree cur nxt := by rw [hq.cons, hpc]; rfl
    obtain ⟨f1, f2, f3⟩ := Queue.inFlight_dfree R hcons
    obtain ⟨l, hl, hlo, hlp⟩ := (hq.fl cur).1 f1
    have hptr : readLE (k.tags μ).w.mem (cur + 8) 8 = cur := by
      rw [← hlp]
      refine I.m.ptr l hl (fun u hu => ?_)
      have := f2 u
      rw [hq.prod, ← hlp, ← hlo] at this
      exact this hu
    simp only [MpcAlloc.purgeStep] at e
    rw [hptr, ← hlp, ← hlo] at e
    obtain ⟨c, hc⟩ := I.m.inv.chain_some (MSpec.queued_all hl)
    have hloc : (k.tags μ).ps.loc l.owner = .ok (CS.tag ⟨k.ps.w, c⟩ (μ l.owner)) := tags_loc (s := k.ps) hc
    rw [hloc, Outcome.ok_bind] at e
    obtain ⟨u, e2, e⟩ := Outcome.bind_eq_ok e
    obtain rfl := Outcome.ok.inj e
    exact slim_free h I (MSpec.queued_all hl) hc e2
  · rw [purge_tags (fun cur nxt e => hd ⟨cur, nxt, e⟩)] at e
    obtain ⟨k1, e1, e⟩ := Outcome.bind_eq_ok e
    obtain rfl := Outcome.ok.inj e
    have h1 : MSlim C w M k1 := h.purgeStep I.m hpc e1
    exact h1

/-- A step of an insertion does not depend on the tags. -/
theorem push_untag {t i r : Nat} {c : PPC} {o : Option Nat} (e : pushStep (k.tags μ) t i r c = .ok (K', o)) :
    ∃ k1 o1, pushStep k t i r c = .ok (k1, o1) ∧ k1.G = K'.G ∧ k1.w = K'.w := by
  cases c with
  | idle => obtain ⟨rfl, _⟩ := Prod.mk.inj (Outcome.ok.inj e); exact ⟨_, _, rfl, rfl, rfl⟩
  | clear en =>
    simp only [pushStep] at e ⊢
    obtain ⟨v, e1, e⟩ := Outcome.bind_eq_ok e
    have e1 : getChunk k.w.mem en = .ok v := e1
    rw [e1, Outcome.ok_bind]
    split at e
    · cases e
    · rename_i hv
      obtain ⟨rfl, _⟩ := Prod.mk.inj (Outcome.ok.inj e)
      rw [if_neg hv]
      exact ⟨_, _, rfl, rfl, rfl⟩
  | swap en => obtain ⟨rfl, _⟩ := Prod.mk.inj (Outcome.ok.inj e); exact ⟨_, _, rfl, rfl, rfl⟩
  | link en p =>
    simp only [pushStep] at e ⊢
    by_cases hp : p = 0
    · rw [if_pos hp] at e ⊢
      obtain ⟨rfl, _⟩ := Prod.mk.inj (Outcome.ok.inj e)
      exact ⟨_, _, rfl, rfl, rfl⟩
    · rw [if_neg hp] at e ⊢
      obtain ⟨rfl, _⟩ := Prod.mk.inj (Outcome.ok.inj e)
      exact ⟨_, _, rfl, rfl, rfl⟩

theorem slim_push (h : MSlim C w M k) (I : Inv Ω cl k μ) {t i r : Nat} {c : PPC} {o : Option Nat}
    (hpc : k.pc t = .push i c r) (e : pushStep (k.tags μ) t i r c = .ok (K', o)) : MSlim C w M K' := by
  obtain ⟨k1, o1, e1, hG, hw⟩ := push_untag e
  exact (h.pushStep I.m hpc e1).keep fun l hl => ⟨by rw [hG]; exact hl, by rw [hw]⟩

/-- A resize in a chain with a tag has the same effect on the memory. -/
theorem rlocal_untag (hf : C.reallocFactor ≠ 0) (I : Inv Ω cl k μ) {t i p b n : Nat} {o : Option Nat} (hpc : k.pc t = .rlocal i p b n)
    (e : mstep C (k.tags μ) t = .ok (K', o)) :
    ∃ k1, mstep C k t = .ok (k1, o) ∧ k1.G = K'.G ∧ k1.w = K'.w := by
  unfold mstep at e
  have hp : (k.tags μ).pc t = k.pc t := rfl
  have ok := I.m.th t
  rw [hp, hpc] at e
  rw [hpc] at ok
  simp only at e
  obtain ⟨hit, l, ⟨⟨hb, hsz, hcl⟩, hp, hn, hs, c0, hc0, hop, hl, rfl, h3, h4⟩, rfl⟩ := ok
  obtain ⟨c, hc⟩ := I.m.inv.chain_some (MSpec.hand_all hl)
  have hsf : ¬ (l.owner ≠ t ∧ ¬ (endSet μ).may) := fun h => h.2 trivial
  have hreq : alignedSize b n = reqSize b n := by rw [reqSize_eq, if_neg hn]
  obtain ⟨T1, T2⟩ := chainRealloc_tag (S := lightSource C) (C := C) (b := b) (p := l.ptr) (n := n) (m := μ l.owner)
    (I.m.inv.chain hc).1 (I.alive (MSpec.hand_all hl)) hp hn
  have hloc : (k.tags μ).ps.loc l.owner = .ok (CS.tag ⟨k.ps.w, c⟩ (μ l.owner)) := tags_loc (s := k.ps) hc
  rw [hloc, Outcome.ok_bind] at e
  obtain ⟨⟨v, r⟩, e2, e⟩ := Outcome.bind_eq_ok e
  obtain ⟨rfl, rfl⟩ := Prod.mk.inj (Outcome.ok.inj e)
  -- the same resize without tag
  have key : ∃ u, chainRealloc (lightSource C) C b ⟨k.ps.w, c⟩ l.ptr n = .ok (u, r) ∧ v.w = u.w := by
    rcases realloc_eff (C := C) I.m.inv (MSpec.hand_all hl) hc hf hb hn hreq hsz hcl (hs.resolve_left hsf) with
      ⟨_, e3⟩ | ⟨e3, J⟩ | ⟨u, r1, e3, hr, _, _, _, J, _⟩
    · rw [T1 e3] at e2; cases e2
    · have hz := (I.m.inv.chain hc).2.2.2 l (MSpec.hand_all hl) rfl
      have := T2 _ _ e3 (by show c.cnt ≠ 0; omega)
      obtain ⟨hv, rfl⟩ := Prod.mk.inj (Outcome.ok.inj (this.symm.trans e2))
      exact ⟨_, e3, by rw [← hv]; rfl⟩
    · have hlen : l.owner < k.ps.chs.length := (List.getElem?_eq_some_iff.1 hc).1
      have hz := (J.chain (PS.put_get u hlen)).2.2.2 ⟨l.owner, r1, n, decide (b ≤ 1)⟩ ((add_live hr).2 (Or.inl rfl)) rfl
      have := T2 _ _ e3 (by omega)
      obtain ⟨hv, rfl⟩ := Prod.mk.inj (Outcome.ok.inj (this.symm.trans e2))
      exact ⟨_, e3, by rw [← hv]; rfl⟩
  obtain ⟨u, e3, hv⟩ := key
  have e4 : mstep C k t = .ok ({ k.setPs (k.ps.put l.owner u) with
      G := if r = l.ptr then k.G.resize l.ptr n else (k.G.drop l.ptr).add t l.owner r n (decide (b ≤ 1)) }.ret t r) := by
    unfold mstep
    rw [hpc]
    simp only
    rw [PS.loc_eq hc, Outcome.ok_bind, e3, Outcome.ok_bind]
    rfl
  exact ⟨_, e4, rfl, hv.symm⟩

theorem slim_step (hf : C.reallocFactor ≠ 0) (I : Inv Ω cl k μ) (hM : w → ∀ t c, k.call t = some c → MBoundLe M c.op)
    (h : MSlim C w M k) {t : Nat} {o : Option Nat} (e : step C (k.tags μ) t = .ok (K', o)) : MSlim C w M K' := by
  have e : mstep C (k.tags μ) t = .ok (K', o) := by
    unfold ConcEnds.step at e
    split at e
    · cases e
    · exact e
  have hT : MSlim C w M (k.tags μ) := h
  unfold mstep at e
  have ok := I.m.th t
  have hp : (k.tags μ).pc t = k.pc t := rfl
  rw [hp] at e
  cases hpc : k.pc t with
  | idle =>
    rw [hpc] at e
    obtain ⟨rfl, _⟩ := Prod.mk.inj (Outcome.ok.inj e); exact hT
  | purge j c =>
    rw [hpc] at e
    simp only at e
    obtain ⟨k1, e1, e⟩ := Outcome.bind_eq_ok e
    obtain ⟨rfl, _⟩ := Prod.mk.inj (Outcome.ok.inj e)
    exact slim_purge h I hpc e1
  | alloc b n a =>
    have hrun : μ t = .run := I.runs (by rw [hpc]; rintro (h | ⟨_, h | ⟨_, h⟩⟩) <;> cases h)
    rw [hpc] at e ok
    simp only at e
    have ok : AllocOK cl k t b n a := ok
    have hb := ok.1
    have ht := I.m.lt (t := t) (by rw [hpc]; simp)
    obtain ⟨c, hc⟩ : ∃ c, k.ps.chs[t]? = some c := ⟨_, List.getElem?_eq_getElem (show t < k.ps.chs.length from ht)⟩
    have hloc : (k.tags μ).ps.loc t = .ok ⟨k.ps.w, c⟩ := by
      have := tags_loc (s := k.ps) (μ := μ) hc
      rw [hrun] at this
      exact this
    rw [hloc, Outcome.ok_bind] at e
    obtain ⟨⟨u, r⟩, e2, e⟩ := Outcome.bind_eq_ok e
    have h1 : MSlim C w M (k.setPs (k.ps.put t u)) := h.keep fun m hm =>
      ⟨hm, (alloc_stay I.m.inv hc hb.1 (show (if n = 0 then 1 else n) ≠ 0 by split <;> omega)
        ((reqSize_eq b n) ▸ hb.2.1) e2).all hm trivial⟩
    have h2 : MSlim C w M { k.setPs (k.ps.put t u) with G := k.G.add t t r n (decide (b ≤ 1)) } :=
      h1.add (fun hw => ok.bound hM hw) rfl (alloc_chunk I.m.inv hc hb.1 hb.2.1 e2)
    have h3 : MSlim C w M { (k.tags μ).setPs ((k.tags μ).ps.put t u) with G := k.G.add t t r n (decide (b ≤ 1)) } := h2
    cases a with
    | ret => obtain ⟨rfl, _⟩ := Prod.mk.inj (Outcome.ok.inj e); exact h3.ret t r
    | zero => obtain ⟨rfl, _⟩ := Prod.mk.inj (Outcome.ok.inj e); exact h3
    | move p => obtain ⟨rfl, _⟩ := Prod.mk.inj (Outcome.ok.inj e); exact h3
  | zero r n =>
    rw [hpc] at e ok
    simp only at e
    obtain ⟨c, b, x, y, hc, hop, rfl, hr, hl, _⟩ := ok
    unfold memZero at e
    rw [if_neg hr, Outcome.ok_bind] at e
    obtain ⟨rfl, _⟩ := Prod.mk.inj (Outcome.ok.inj e)
    have h1 := h.store (m' := fun z => if r ≤ z ∧ z < r + x * y then 0 else k.w.mem z) I.m.inv (MSpec.hand_all hl)
      (fun z hz => by
        unfold PBlock.Byte at hz
        simp only at hz
        rw [if_neg hz])
    exact MSlim.ret (k := (k.tags μ).setMem _) h1 t r
  | copy r p n =>
    rw [hpc] at e ok
    simp only at e
    obtain ⟨c, b, l, hc, hop, hp, hn, hpr, ⟨hr, hl, _⟩, o1, o2, _⟩ := ok
    obtain ⟨g, eg, hg1, hg2⟩ := getSize_op I.m.inv (MSpec.hand_all o1)
    have hd := hg2 _ (MSpec.hand_all hl) (by simp only; rw [o2]; exact hpr.symm)
    simp only at hd hg1
    rw [o2] at hd eg
    obtain ⟨z, hz⟩ : ∃ z, z = if n < g then n else g := ⟨_, rfl⟩
    have hzn : z ≤ n ∧ z ≤ g := by rw [hz]; split <;> omega
    obtain ⟨m', em, _, c2⟩ := memCopy_ok (m := k.w.mem) (dst := r) (src := p) (n := z) (by omega)
    have eg : posixGetSize (k.tags μ).w.mem p = .ok g := eg
    have em : memCopy (k.tags μ).w.mem r p z = .ok m' := em
    rw [if_pos hr, eg, Outcome.ok_bind, ← hz, em, Outcome.ok_bind] at e
    obtain ⟨rfl, _⟩ := Prod.mk.inj (Outcome.ok.inj e)
    exact h.store (m' := m') I.m.inv (MSpec.hand_all hl) (fun x hx => by
      unfold PBlock.Byte at hx
      simp only at hx
      exact c2 x (by omega))
  | look p r =>
    rw [hpc] at e
    simp only at e
    by_cases hp : p = 0
    · rw [if_pos hp] at e
      obtain ⟨rfl, _⟩ := Prod.mk.inj (Outcome.ok.inj e); exact hT.ret t r
    rw [if_neg hp] at e
    obtain ⟨u, _, e⟩ := Outcome.bind_eq_ok e
    obtain ⟨⟨k1, x⟩, e1, e⟩ := Outcome.bind_eq_ok e
    obtain ⟨h1, hG, hm⟩ := hT.look e1
    simp only at e
    split at e
    · split at e
      · cases e
      · obtain ⟨rfl, _⟩ := Prod.mk.inj (Outcome.ok.inj e); exact h1.ret t r
    · rename_i a i
      obtain ⟨v, _, e⟩ := Outcome.bind_eq_ok e
      split at e
      · obtain ⟨rfl, _⟩ := Prod.mk.inj (Outcome.ok.inj e); exact h1
      · obtain ⟨rfl, _⟩ := Prod.mk.inj (Outcome.ok.inj e)
        intro l' hl' hpl
        obtain ⟨l, hl, rfl⟩ := List.mem_map.1 ((k1.G.toQueue_all p).mem_iff.1 hl')
        by_cases hlp : l.ptr = p
        · rw [if_pos hlp] at hpl ⊢
          refine Slack.wide (h1 l hl hpl) ?_
          show 32 ≤ chunkBytes k1.w.mem l.ptr
          rw [hm]
          exact chunk_ge I.m.inv (by rw [hG] at hl; exact hl)
        · rw [if_neg hlp] at hpl ⊢
          exact h1 l hl hpl
  | lfree i p r =>
    rw [hpc] at e ok
    simp only at e
    obtain ⟨hit, okr, hpr, l, hl, rfl, rfl⟩ := ok
    obtain ⟨c, hc⟩ := I.m.inv.chain_some (MSpec.hand_all hl)
    have hloc : (k.tags μ).ps.loc l.owner = .ok (CS.tag ⟨k.ps.w, c⟩ (μ l.owner)) := tags_loc (s := k.ps) hc
    rw [hloc, Outcome.ok_bind] at e
    obtain ⟨u, e2, e⟩ := Outcome.bind_eq_ok e
    obtain ⟨rfl, _⟩ := Prod.mk.inj (Outcome.ok.inj e)
    exact (slim_free h I (MSpec.hand_all hl) hc e2).ret t r
  | push i c r =>
    rw [hpc] at e
    exact slim_push h I hpc e
  | rlook p b n =>
    rw [hpc] at e
    simp only at e
    obtain ⟨u, _, e⟩ := Outcome.bind_eq_ok e
    obtain ⟨⟨k1, x⟩, e1, e⟩ := Outcome.bind_eq_ok e
    obtain ⟨h1, _, _⟩ := hT.look e1
    simp only at e
    split at e
    · cases e
    · obtain ⟨v, _, e⟩ := Outcome.bind_eq_ok e
      split at e <;> obtain ⟨rfl, _⟩ := Prod.mk.inj (Outcome.ok.inj e) <;> exact h1
  | rlocal i p b n =>
    have e : mstep C (k.tags μ) t = .ok (K', o) := by
      unfold mstep
      rw [hp, hpc]
      rw [hpc] at e
      exact e
    obtain ⟨k1, e1, hG, hw⟩ := rlocal_untag hf I hpc e
    exact (MSlim.step hf I.m hM h e1).keep fun m hm => ⟨by rw [hG]; exact hm, by rw [hw]⟩

end

theorem Event.calls {C : Config} {X : MCall → Prop} (hX0 : X (.free 0)) {k k' : MS} (e : Event C X k k')
    (h : ∀ t c, k.call t = some c → X c.op) : ∀ t c, k'.call t = some c → X c.op := by
  have hs : ∀ (K : MS) t op, X op → (∀ t c, K.call t = some c → X c.op) → ∀ u c, (K.start t op).call u = some c → X c.op := by
    intro K t op hx h u c e
    rw [start_call] at e
    by_cases hu : u = t
    · subst hu
      rw [upd_same] at e
      rw [← Option.some.inj e]
      exact hx
    · rw [upd_ne hu] at e
      exact h u c e
  cases e with
  | call _ _ _ _ _ hx => exact hs _ _ _ hx h
  | step e =>
    unfold ConcEnds.step at e
    split at e
    · cases e
    · rw [mstep_call e]; exact h
  | write _ _ => exact h
  | spawn _ _ => exact h
  | flag _ _ _ => exact h
  | handler _ _ _ => exact hs _ _ _ hX0 h

theorem Reach.slim {C : Config} {w : Prop} {M : Nat} {X : MCall → Prop} {k : MS} (hf : C.reallocFactor ≠ 0)
    (hX : w → ∀ op, X op → MBoundLe M op) (h : Reach C X k) : MSlim C w M k := by
  obtain ⟨k0, h0, h⟩ := h
  have H : MSlim C w M k ∧ (w → ∀ t c, k.call t = some c → MBoundLe M c.op) := by
    induction h with
    | refl =>
      obtain ⟨m, R, o, _, _, _, rfl⟩ := h0
      refine ⟨fun l hl _ => ?_, fun _ t c e => ?_⟩
      · have hl : l ∈ ([] : List PBlock) := hl
        cases hl
      · have e : (none : Option MRec) = some c := e
        cases e
    | @tail k1 k2 h e ih =>
      obtain ⟨ih, hc⟩ := ih
      obtain ⟨Ω, N, μ, _, rfl, I⟩ := Reach.inv (cl := False) hf False.elim ⟨k0, h0, h⟩
      have ih : MSlim C w M N := ih
      refine ⟨?_, fun hw => ?_⟩
      · cases e with
        | @call t op _ _ _ _ _ _ =>
          refine ih.keep fun l hl => ⟨(start_all (N.tags μ) t op).mem_iff.1 hl, ?_⟩
          rw [start_src]; rfl
        | step e => exact slim_step hf I hc ih e
        | @write l a v hl ha =>
          exact ih.store (m' := fun x => if x = a then v else N.w.mem x) I.m.inv (MSpec.live_all hl)
            (fun x hx => if_neg (fun h : x = a => hx (by rw [h]; exact ha)))
        | @spawn s a z pb hv e =>
          unfold posixSpawn at e
          obtain ⟨u, e1, e⟩ := Outcome.bind_eq_ok e
          obtain rfl := Outcome.ok.inj e
          have e2 : ∃ s0, posixSpawn N.ps a z pb = .ok s0 ∧ s0.w = u.w := by
            unfold posixSpawn
            have e1 : userInit (N.ps.reserve a z).w a pb 0 0 false false false = .ok u := e1
            simp only
            rw [e1, Outcome.ok_bind]
            exact ⟨_, rfl, rfl⟩
          obtain ⟨s0, e2, hw0⟩ := e2
          refine ih.keep fun l hl => ⟨hl, ?_⟩
          have := (spawn_stay I.m.inv (s' := s0) (a := a) (z := z) (pb := pb) hv e2).all hl trivial
          rw [hw0] at this
          exact this
        | flag _ _ _ => exact ih
        | @handler t _ _ _ =>
          refine ih.keep fun l hl => ⟨(start_all _ t (.free 0)).mem_iff.1 hl, ?_⟩
          unfold setHandler
          rw [start_src]; rfl
      · refine Event.calls (X := MBoundLe M) trivial (C := C) ?_ (hc hw)
        cases e with
        | call h1 h2 h3 h4 h5 h6 => exact .call h1 h2 h3 h4 h5 (hX hw _ h6)
        | step e => exact .step e
        | write h1 h2 => exact .write h1 h2
        | spawn h1 h2 => exact .spawn h1 h2
        | flag h1 h2 h3 => exact .flag h1 h2 h3
        | handler h1 h2 h3 => exact .handler h1 h2 h3
  exact H.1

theorem Reach.mono {C : Config} {X Y : MCall → Prop} {k : MS} (hX : ∀ op, X op → Y op) (h : Reach C X k) : Reach C Y k := by
  obtain ⟨k0, h0, h⟩ := h
  refine ⟨k0, h0, ?_⟩
  induction h with
  | refl => exact .refl
  | tail _ e ih =>
    refine ih.tail ?_
    cases e with
    | call h1 h2 h3 h4 h5 h6 => exact .call h1 h2 h3 h4 h5 (hX _ h6)
    | step e => exact .step e
    | write h1 h2 => exact .write h1 h2
    | spawn h1 h2 => exact .spawn h1 h2
    | flag h1 h2 h3 => exact .flag h1 h2 h3
    | handler h1 h2 h3 => exact .handler h1 h2 h3

/-- C83 when threads end while the others run: the chunks of the blocks, also of those whose thread has ended. Missing: the
sizes that do not fit (`PSize`), and resizes that make an aligned block larger. -/
theorem C83_ends_partial {C : Config} {X : MCall → Prop} {k : MS} (hf : C.reallocFactor ≠ 0) (h : Reach C X k)
    {l : PBlock} (hl : l ∈ k.G.all) (hp : l.plain = true) : Slack C 0 l.len (chunkBytes k.w.mem l.ptr) := by
  have := h.slim (w := False) (M := 0) hf False.elim l hl (Or.inl hp)
  rwa [if_pos hp] at this

/-- C83 when threads end, with boundaries of at most `M`. Missing: see `C83_ends_partial`. -/
theorem C83_ends_bound_partial {C : Config} {X : MCall → Prop} {M : Nat} {k : MS} (hf : C.reallocFactor ≠ 0)
    (hX : ∀ op, X op → MBoundLe M op) (h : Reach C X k) {l : PBlock} (hl : l ∈ k.G.all) :
    Slack C M l.len (chunkBytes k.w.mem l.ptr) := by
  have := h.slim (w := True) hf (fun _ => hX) l hl (Or.inr trivial)
  split at this
  · unfold Slack at this ⊢
    rcases this with ⟨N, h1, h2, h3⟩ | h
    · exact Or.inl ⟨N, h1, by omega, h3⟩
    · exact Or.inr h
  · exact this

/-- C83, the process, when threads end: see `C83_interleaved_bytes_partial`. Missing: requests that need a chunk of 1 MB
(`C78_refuted`), and see `C83_ends_partial`. -/
theorem C83_ends_bytes_partial {C : Config} {M : Nat} {k : MS} (hf : C.reallocFactor ≠ 0)
    (h : Reach C (fun op => MClean op ∧ MBoundLe M op) k) :
    ∃ D L, Blocs k.w D ∧ k.w.src.counter = D.length ∧ Cached k.w.mem k.w.src L ∧ (D ++ L).Pairwise NoShare ∧
      ((D ++ L).map Prod.snd).sum ≤ (k.G.all.map PBlock.len).sum +
        k.G.all.length * (max MB2 C.reallocThreshold + M + 64) + C.keepMem + C.keepMax := by
  obtain ⟨D, L, h1, h2, h3, h4, h5⟩ := C82_bytes_ends_partial hf (h.mono (Y := MClean) (fun _ h => h.1))
  refine ⟨D, L, h1, h2, h3, h4, ?_⟩
  have hs : ∀ l ∈ k.G.all, heldFor k.w.mem l.ptr ≤ l.len + (max MB2 C.reallocThreshold + M + 64) := by
    intro l hl
    have := C83_ends_bound_partial hf (fun _ h => h.2) h hl
    have hM : MB2 = 2097152 := rfl
    unfold heldFor
    rcases this with ⟨N, h1, h2, h3⟩ | h
    · have := h3.le (by omega)
      omega
    · unfold LeftAlone at h
      omega
  have := slim_sum (fun l => heldFor k.w.mem l.ptr) _ _ hs
  omega

/-- Hypotheses of the theorems: a thread with a block has begun to end. -/
example : ∃ C k r, C.reallocFactor ≠ 0 ∧ Reach C (fun op => MClean op ∧ MBoundLe 64 op) k ∧ k.G.live = [⟨0, r, 100, true⟩] ∧
    safe k 0 = true := by
  obtain ⟨k, r, z, hr, h, hp, hr0, hG, hz, hs⟩ := start_small (X := fun op => MClean op ∧ MBoundLe 64 op)
    ⟨small_clean, by show 0 ≤ 64; omega⟩
  obtain ⟨v1, h1⟩ := h.flag (C := Config.default) (X := fun op => MClean op ∧ MBoundLe 64 op) (hp 0)
  exact ⟨Config.default, setSafe k 0, r, by decide, hr.event v1, by show k.G.live = _; rw [hG], h1.safe0⟩

end MpcAlloc.ConcEnds
