import Verif.ConcSpec
import Verif.PropsQueue
import Verif.PropsPosix

namespace MpcAlloc
namespace Queue

theorem Reach.out_le {s : S} (h : Reach s) : s.out.length ≤ s.pushed.length := by
  obtain ⟨rest, e, _⟩ := C25_exactly_once h
  have := congrArg List.length e
  simp at this
  omega

theorem inFlight_start {s : S} {t e : Nat} (ht : s.prod t = .idle) (f : Nat) :
    InFlight { s with prod := upd s.prod t (.clear e), calls := s.calls ++ [(t, e)] } f ↔ f = e ∨ InFlight s f := by
  unfold InFlight
  simp only
  constructor
  · rintro (⟨u, hu⟩ | h)
    · by_cases h : u = t
      · subst h
        rw [upd_same] at hu
        simp only [PPC.clear.injEq, reduceCtorEq, or_false] at hu
        exact Or.inl hu.symm
      · rw [upd_ne h] at hu
        exact Or.inr (Or.inl ⟨u, hu⟩)
    · exact Or.inr (Or.inr h)
  · rintro (rfl | ⟨u, hu⟩ | h)
    · exact Or.inl ⟨t, Or.inl (upd_same _ _ _)⟩
    · refine Or.inl ⟨u, ?_⟩
      rw [upd_ne]
      · exact hu
      · rintro rfl; rw [ht] at hu; simp at hu
    · exact Or.inr h

theorem inFlight_prod {s : S} (h : Reach s) (t f : Nat) : InFlight (pstep s t) f ↔ InFlight s f := by
  unfold pstep
  cases hp : s.prod t with
  | idle => exact Iff.rfl
  | clear e =>
    unfold InFlight
    simp only
    refine or_congr ⟨?_, ?_⟩ Iff.rfl
    · rintro ⟨u, hu⟩
      by_cases h : u = t
      · subst h
        rw [upd_same] at hu
        simp only [PPC.swap.injEq, reduceCtorEq, false_or] at hu
        exact ⟨u, Or.inl (by rw [hp, hu])⟩
      · rw [upd_ne h] at hu; exact ⟨u, hu⟩
    · rintro ⟨u, hu⟩
      by_cases h : u = t
      · subst h
        rw [hp] at hu
        simp only [PPC.clear.injEq, reduceCtorEq, or_false] at hu
        exact ⟨u, Or.inr (by rw [upd_same, hu])⟩
      · exact ⟨u, by rw [upd_ne h]; exact hu⟩
  | swap e =>
    unfold InFlight
    simp only [List.map_append, List.map_cons, List.map_nil]
    rw [List.drop_append_of_le_length (by simpa using h.out_le), List.mem_append, List.mem_singleton]
    constructor
    · rintro (⟨u, hu⟩ | h | rfl)
      · by_cases h : u = t
        · subst h
          rw [upd_same] at hu
          simp at hu
        · rw [upd_ne h] at hu; exact Or.inl ⟨u, hu⟩
      · exact Or.inr h
      · exact Or.inl ⟨t, Or.inr hp⟩
    · rintro (⟨u, hu⟩ | h)
      · by_cases h : u = t
        · subst h
          rw [hp] at hu
          simp only [PPC.swap.injEq, reduceCtorEq, false_or] at hu
          exact Or.inr (Or.inr hu.symm)
        · exact Or.inl ⟨u, by rw [upd_ne h]; exact hu⟩
      · exact Or.inr (Or.inl h)
  | link e p =>
    have hk : ∀ c : S, c.prod = upd s.prod t .idle → c.pushed = s.pushed → c.out = s.out → (InFlight c f ↔ InFlight s f) := by
      intro c h1 h2 h3
      unfold InFlight
      rw [h1, h2, h3]
      refine or_congr ⟨?_, ?_⟩ Iff.rfl
      · rintro ⟨u, hu⟩
        by_cases h : u = t
        · subst h; rw [upd_same] at hu; simp at hu
        · rw [upd_ne h] at hu; exact ⟨u, hu⟩
      · rintro ⟨u, hu⟩
        by_cases h : u = t
        · subst h; rw [hp] at hu; simp at hu
        · exact ⟨u, by rw [upd_ne h]; exact hu⟩
    simp only
    split
    · exact hk _ rfl rfl rfl
    · exact hk _ rfl rfl rfl

/-- A step of the consumer other than the free of an entry. -/
theorem inFlight_cons {s s' : S} (e : cstep s = .ok s') (hc : ∀ cur nxt, s.cons ≠ .dfree cur nxt) (f : Nat) :
    InFlight s' f ↔ InFlight s f := by
  have hk : s'.prod = s.prod ∧ s'.pushed = s.pushed ∧ s'.out = s.out := by
    unfold cstep at e
    split at e
    all_goals try split at e
    all_goals try split at e
    all_goals try split at e
    all_goals first
      | (cases Outcome.ok.inj e; exact ⟨rfl, rfl, rfl⟩)
      | (cases e; done)
      | (exact absurd ‹_› (hc _ _))
  unfold InFlight
  rw [hk.1, hk.2.1, hk.2.2]

/-- The entry that the consumer is about to free. -/
theorem inFlight_dfree {s : S} (h : Reach s) {cur nxt : Nat} (hc : s.cons = .dfree cur nxt) :
    InFlight s cur ∧ (∀ t, s.prod t ≠ .clear cur) ∧
    ∀ f, InFlight { s with cons := .dread nxt, out := s.out ++ [cur] } f ↔ InFlight s f ∧ f ≠ cur := by
  obtain ⟨D, Q, own, I⟩ := h.inv
  have hC := I.cons
  unfold ConsOK at hC
  rw [hc] at hC
  obtain ⟨D', e, h1, h2⟩ := hC
  subst e
  have hnot : cur ∉ D' ++ Q := (List.nodup_cons.1 I.nodup).1
  have h' : Reach { s with cons := .dread nxt, out := s.out ++ [cur] } :=
    Reach.cons h (by unfold cstep; rw [hc])
  refine ⟨(I.inFlight cur).2 (Or.inr (by simp)), fun t ht => (I.pre t cur (Or.inl ht)).2 (by simp), fun f => ?_⟩
  rw [I.inFlight]
  unfold InFlight
  simp only [I.pushed]
  rw [show s.out ++ (cur :: D' ++ Q) = (s.out ++ [cur]) ++ (D' ++ Q) by simp, List.drop_left]
  constructor
  · rintro (⟨t, ht⟩ | h)
    · exact ⟨Or.inl ⟨t, ht⟩, fun e => (I.pre t f ht).2 (by rw [e]; simp)⟩
    · exact ⟨Or.inr (List.mem_cons_of_mem _ h), fun e => hnot (e ▸ h)⟩
  · rintro ⟨⟨t, ht⟩ | h, hne⟩
    · exact Or.inl ⟨t, ht⟩
    · rcases List.mem_cons.1 h with h | h
      · exact absurd h hne
      · exact Or.inr h

/-- The entry whose link is missing, and where the link is going to be written. -/
theorem inFlight_link {s : S} (h : Reach s) {t e p : Nat} (hp : s.prod t = .link e p) :
    InFlight s e ∧ (p ≠ 0 → InFlight s p) := by
  obtain ⟨D, Q, own, I⟩ := h.inv
  have ho := (I.ownIff e t p).2 hp
  have hin := I.ownIn e t p ho
  refine ⟨(I.inFlight e).2 (Or.inr hin), fun hp0 => (I.inFlight p).2 (Or.inr ?_)⟩
  have mem_tail : ∀ {L : List Nat}, e ∈ L → L.head? ≠ some e → e ∈ L.tail := by
    intro L h1 h2
    cases L with
    | nil => cases h1
    | cons a l =>
      rcases List.mem_cons.1 h1 with rfl | h1
      · exact absurd rfl h2
      · exact h1
  rcases List.mem_append.1 hin with hD | hQ
  · have : D.head? ≠ some e := fun hd => by rw [I.firstD e hd] at ho; cases ho
    exact List.mem_append_left _ (List.dropLast_subset _ (I.linkD.pred (mem_tail hD this) ho).1)
  · by_cases hd : Q.head? = some e
    · exfalso
      have hH := I.head
      unfold HeadOK at hH
      split at hH
      · rw [hd] at hH
        rw [Option.some.inj hH.2.1, hH.2.2] at ho; cases ho
      · rw [hd] at hH
        rw [Option.some.inj hH.2.1, hH.2.2] at ho; cases ho
      · rcases hH.1 e hd with h1 | ⟨_, u, h1⟩
        · rw [h1.2] at ho; cases ho
        · rw [ho] at h1
          exact hp0 (Prod.mk.inj (Option.some.inj h1)).2
    · exact List.mem_append_right _ (List.dropLast_subset _ (I.linkQ.pred (mem_tail hQ hd) ho).1)

end Queue

/-! ## The blocks -/

/-- The chain of a block. -/
theorem PInv.chain_some {Ω : Env} {cl : Prop} {s : PS} {G : PSpec} (I : PInv Ω cl s G) {l : PBlock} (hl : l ∈ G.live) :
    ∃ c, s.chs[l.owner]? = some c := by
  obtain ⟨_, _, c, _, _, _, _, hc, _⟩ := lookup_eff I hl
  exact ⟨c, hc⟩

theorem PInv.perm {Ω : Env} {cl : Prop} {s : PS} {M M' : List PBlock} (I : PInv Ω cl s ⟨M, []⟩) (h : M.Perm M') :
    PInv Ω cl s ⟨M', []⟩ := by
  obtain ⟨H, L, D, B, K⟩ := I
  refine ⟨H, L, D, B, fun l hl => K.live l (h.mem_iff.2 hl), fun l hl => absurd hl (by simp), ?_, fun hcl t g hg => ?_⟩
  · have := K.nodup
    simp only [List.append_nil] at this ⊢
    exact this.perm h (fun h => h.symm)
  · obtain ⟨h1, h2⟩ := K.clean hcl t g hg
    refine ⟨h1, fun k hk => ⟨(h2 k hk).1, ?_⟩⟩
    obtain ⟨l, hl, e⟩ := (h2 k hk).2
    simp only [List.append_nil] at hl ⊢
    exact ⟨l, h.mem_iff.1 hl, e⟩

/-- The lengths of the blocks may change up to 16 bytes. -/
theorem PInv.relen {Ω : Env} {cl : Prop} {s : PS} {M : List PBlock} (I : PInv Ω cl s ⟨M, []⟩) {f : PBlock → PBlock}
    (hf : ∀ l ∈ M, (f l).owner = l.owner ∧ (f l).ptr = l.ptr ∧ (f l).plain = l.plain ∧ (f l).len ≤ max l.len 16) :
    PInv Ω cl s ⟨M.map f, []⟩ := by
  obtain ⟨H, L, D, B, K⟩ := I
  refine ⟨H, L, D, B, fun l hl => ?_, fun l hl => absurd hl (by simp), ?_, fun hcl t g hg => ?_⟩
  · obtain ⟨m, hm, rfl⟩ := List.mem_map.1 hl
    obtain ⟨h1, h2, h3, h4⟩ := hf m hm
    obtain ⟨g, k, a1, a2, a3, a4, a5, a6⟩ := K.live m hm
    obtain ⟨c, _, T⟩ := B.getH a1
    have hr := T.ch.room k a2
    rw [h1, h2, h3]
    exact ⟨g, k, a1, a2, a3, a4, by omega, a6⟩
  · have := K.nodup
    simp only [List.append_nil] at this ⊢
    rw [List.pairwise_map]
    refine this.imp_of_mem (fun {a b} ha hb hab => ?_)
    rw [(hf a ha).2.1, (hf b hb).2.1]; exact hab
  · obtain ⟨h1, h2⟩ := K.clean hcl t g hg
    refine ⟨h1, fun k hk => ⟨(h2 k hk).1, ?_⟩⟩
    obtain ⟨l, hl, e⟩ := (h2 k hk).2
    simp only [List.append_nil] at hl ⊢
    exact ⟨f l, List.mem_map_of_mem hl, by rw [(hf l hl).1, (hf l hl).2.1]; exact e⟩

theorem MSpec.drop_all (G : MSpec) (p : Nat) : (G.drop p).all = G.all.filter (fun l => decide (l.ptr ≠ p)) := by
  unfold MSpec.drop MSpec.all
  simp only [List.filter_append, List.filter_map]
  rfl

theorem MSpec.split (G : MSpec) (p : Nat) : (G.find p ++ (G.drop p).all).Perm G.all := by
  rw [MSpec.drop_all]
  unfold MSpec.find
  have := List.filter_append_perm (fun l : PBlock => decide (l.ptr = p)) G.all
  simpa using this

theorem MSpec.toHand_all (G : MSpec) (t p : Nat) : (G.toHand t p).all.Perm G.all := by
  refine List.Perm.trans ?_ (G.split p)
  unfold MSpec.toHand MSpec.all
  simp only [List.map_append, List.map_map]
  rw [show (Prod.snd ∘ fun l : PBlock => (t, l)) = id from rfl, List.map_id, List.append_assoc]
  exact List.perm_append_comm_assoc _ _ _

theorem MSpec.toLive_all (G : MSpec) (p : Nat) : (G.toLive p).all.Perm G.all := by
  refine List.Perm.trans ?_ (G.split p)
  unfold MSpec.toLive MSpec.all
  simp only [List.append_assoc]
  exact List.Perm.refl _

theorem MSpec.toQueue_all (G : MSpec) (p : Nat) :
    (G.toQueue p).all.Perm (G.all.map (fun l => if l.ptr = p then l.wide else l)) := by
  refine List.Perm.trans ?_ ((G.split p).map _)
  rw [List.map_append]
  have h1 : (G.find p).map (fun l => if l.ptr = p then l.wide else l) = (G.find p).map PBlock.wide := by
    refine List.map_congr_left (fun l hl => if_pos ?_)
    simpa using (List.mem_filter.1 hl).2
  have h2 : (G.drop p).all.map (fun l => if l.ptr = p then l.wide else l) = (G.drop p).all := by
    rw [G.drop_all]
    refine Eq.trans (List.map_congr_left (g := id) (fun l hl => if_neg ?_)) (List.map_id _)
    simpa using (List.mem_filter.1 hl).2
  rw [h1, h2]
  unfold MSpec.toQueue MSpec.all
  simp only
  refine List.Perm.trans (List.Perm.append_left _ (List.perm_append_comm_assoc _ _ _)) ?_
  exact List.perm_append_comm_assoc _ _ _

theorem MSpec.resize_all (G : MSpec) (p n : Nat) : (G.resize p n).all = G.all.map (PBlock.relen p n) := by
  unfold MSpec.resize MSpec.all
  simp only [List.map_append, List.map_map]
  rfl

theorem MSpec.add_all (G : MSpec) (t o : Nat) {r : Nat} (n : Nat) (pl : Bool) (hr : r ≠ 0) :
    (G.add t o r n pl).all.Perm (⟨o, r, n, pl⟩ :: G.all) := by
  unfold MSpec.add
  rw [if_neg hr]
  unfold MSpec.all
  simp only [List.map_cons, List.cons_append]
  exact List.perm_middle

end MpcAlloc
