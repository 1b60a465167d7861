import Verif.EndsStep
import Verif.PropsDestroy
import Verif.PropsConcSource

/-
C57: threads that come and go. What holds of the code is proved for all histories of any number of threads, each of which may
end at any time; the free of the last small block of a thread that has ended is refuted.
-/

namespace MpcAlloc.Ends

/-! ## Helpers -/

theorem after_live {G : PSpec} {E : List Nat} {op : POp} {p r : Nat} (hF : Frees op p) (hp : p ≠ 0) {m : PBlock} :
    m ∈ (after G E op r).live ↔ m ∈ G.live ∧ m.ptr ≠ p := by
  obtain ⟨u, hu⟩ : ∃ u, op.thread = some u := by
    rcases hF with ⟨u, rfl⟩ | ⟨u, h, rfl⟩
    · exact ⟨u, rfl⟩
    · exact ⟨u, rfl⟩
  unfold after
  rw [frees_asOwner hF, frees_after hF hp hu]
  unfold drainAll PSpec.del PSpec.drain
  simp only
  rw [List.mem_filter, decide_eq_true_eq]

/-- The histories of `PReach` are those in which no thread ends. -/
theorem reach_of {C : Config} {X : POp → Prop} {s : PS} {G : PSpec} (h : PReach C X s G) : Reach C X ⟨s, G, []⟩ := by
  have hn : ∀ G : PSpec, drainAll G [] = G := fun G => drainAll_self (fun l _ h => by cases h)
  have ha : ∀ (G : PSpec) (op : POp), asOwner G [] op = op := fun G op => asOwner_self (fun l h => by cases h.2.1)
  induction h with
  | init h1 h2 h3 => exact ⟨_, ⟨_, _, _, h1, h2, h3, rfl⟩, .refl⟩
  | @step s s' G op r _ hv hx e ih =>
    obtain ⟨a0, h0, hs⟩ := ih
    refine ⟨a0, h0, ?_⟩
    have h1 : Valid ⟨s, G, []⟩ op := by
      refine ⟨by rw [ha]; exact hv, fun u hu => ⟨?_, fun h => by cases h⟩⟩
      cases op <;> cases hu <;> exact hv.1
    have := Step.call (X := X) h1 hx e
    unfold after at this
    rw [ha, hn] at this
    exact .tail hs this

/-! ## Theorems -/

/-- C57, blocks. Whatever threads have ended, the live blocks and those that wait for their thread are pairwise disjoint and
lie in mapped memory; no block waits for a thread that has ended. -/
theorem C57_blocks_partial {C : Config} {X : POp → Prop} {a : State} (hf : C.reallocFactor ≠ 0) (h : Reach C X a) :
    (a.G.live ++ a.G.pend).Pairwise PBlock.Disj ∧
    (∀ l ∈ a.G.live ++ a.G.pend, l.ptr ≠ 0 ∧ l.owner < a.s.chs.length ∧ ∀ x, l.Byte x → a.s.w.src.os.used x = true) ∧
    ∀ l ∈ a.G.pend, l.owner ∉ a.E := by
  obtain ⟨μ, s, M⟩ := h.mks (cl := False) hf False.elim
  obtain ⟨Ω, I⟩ := M.env
  have hd := I.disj
  rw [M.world, M.len]
  exact ⟨hd.1, hd.2, M.pend⟩

/-- C57, calls. A valid call for which there is memory succeeds, unless it frees the last live block of a thread that has
ended: it returns an aligned block, a resize keeps the contents, the bytes of the blocks that live before and after the call
keep their value, and the handler of no thread is called. -/
theorem C57_calls_partial {C : Config} {X : POp → Prop} {a : State} {op : POp} (hf : C.reallocFactor ≠ 0) (h : Reach C X a)
    (hv : Valid a op) (hm : OpMem a.s op)
    (hlast : ∀ t l, t ∈ a.E → Of a t l → Frees op l.ptr → ∃ m, Of a t m ∧ m.ptr ≠ l.ptr) :
    ∃ s' r, pexec C a.s op = .ok (s', r) ∧ POk a.s a.G (asOwner a.G a.E op) s' r ∧
      ∀ t ∈ a.E, ∃ c c', a.s.chs[t]? = some c ∧ s'.chs[t]? = some c' ∧ c'.calls = c.calls ∧ c'.dead = c.dead := by
  obtain ⟨μ, s, M⟩ := h.mks (cl := False) hf False.elim
  obtain ⟨Ω, I⟩ := M.env
  have fin : ∀ {s' r}, Done False a.E C μ a.s s a.G op s' r →
      (∀ t ∈ a.E, ∀ l, Of a t l → Frees op l.ptr → ∃ c, s'.chs[t]? = some c ∧ c.calls = 0) →
      ∃ s' r, pexec C a.s op = .ok (s', r) ∧ POk a.s a.G (asOwner a.G a.E op) s' r ∧
      ∀ t ∈ a.E, ∃ c c', a.s.chs[t]? = some c ∧ s'.chs[t]? = some c' ∧ c'.calls = c.calls ∧ c'.dead = c.dead := by
    intro s' r d hz
    obtain ⟨μ', s2, M', _, hmu, _⟩ := d.next
    refine ⟨s', r, d.run, d.ok, fun t ht => ?_⟩
    obtain ⟨c, k, _, hk, h1, h2⟩ := M.chain ht
    obtain ⟨c', k', _, hk', h1', h2'⟩ := M'.chain ht
    refine ⟨_, _, h1, h1', ?_⟩
    have hkk : k' = k := by
      by_cases hex : ∃ l, Of a t l ∧ Frees op l.ptr
      · obtain ⟨l, hl, hF⟩ := hex
        obtain ⟨c2, e2, e3⟩ := hz t ht l hl hF
        have h0 : k' = false := by
          rw [h1'] at e2
          have := Option.some.inj e2
          rw [← this, h2'] at e3
          cases k' with
          | false => rfl
          | true => simp at e3
        have := M.live_ended hl.1 (hl.2 ▸ ht)
        rw [hl.2, hk] at this
        rw [h0]; exact (Option.some.inj this).symm
      · have := hmu t (fun l hl hF ho => hex ⟨l, ⟨hl, ho⟩, hF⟩)
        rw [hk, hk'] at this
        exact Option.some.inj this
    subst hkk
    exact ⟨by rw [h2, h2'], rfl⟩
  obtain ⟨hv, hth⟩ := hv
  rcases call_cases a.G a.E op with ht | ⟨l, hl, ho, hF⟩ | ⟨l, hl, ho, u, b, n, rfl, hn⟩
  · rcases M.other (C := C) hf hv (fun u hu => (hth u hu).2) False.elim ht with ⟨h1, _⟩ | ⟨s', r, d⟩
    · exact absurd hm h1
    · refine fin d (fun t hE l hl hF => absurd ⟨hl.1, hl.2 ▸ hE, ?_⟩ (ht l))
      rcases hF with ⟨u, rfl⟩ | ⟨u, b, rfl⟩
      · exact Or.inl ⟨u, rfl⟩
      · exact Or.inr ⟨u, b, 0, rfl⟩
  · obtain ⟨hg, _, n, h1, _, h2⟩ := M.freed (C := C) hF hth hl ho
    obtain ⟨m, hm1, hm2⟩ := hlast l.owner l ho ⟨hl, rfl⟩ hF
    have hn := h1 ⟨m, (after_live hF (I.ptr hl)).2 ⟨hm1.1, hm2⟩, hm1.2⟩
    rcases h2 with ⟨h0, _⟩ | ⟨_, s', d, c, hc, _, hcalls⟩
    · exact absurd h0 hn
    · refine fin d (fun t hE l' hl' hF' => ?_)
      have hpp : l'.ptr = l.ptr := by
        rcases hF with ⟨u, rfl⟩ | ⟨u, b, rfl⟩ <;> rcases hF' with ⟨u', e⟩ | ⟨u', b', e⟩ 
        · injection e with _ e; exact e.symm
        · cases e
        · cases e
        · injection e with _ e; exact e.symm
      have := I.live_inj hl'.1 hl hpp
      subst this
      rw [hl'.2] at hc
      exact ⟨c, hc, by rw [hcalls, if_neg hn]⟩
  · obtain ⟨hu, hE⟩ := hth u rfl
    rcases M.resize (C := C) hf hv hu hE False.elim hl ho hn with ⟨h1, _⟩ | ⟨s', r, d⟩
    · exact absurd hm h1
    · refine fin d (fun t hE l hl hF => ?_)
      rcases hF with ⟨u', e⟩ | ⟨u', b', e⟩
      · cases e
      · injection e with _ _ _ e; exact absurd e hn

/-- C57, resize. A block of a thread that has ended, resized by another thread, keeps its contents and still belongs to the
chain of the thread that has ended, so it is disjoint from all the others. -/
theorem C57_resize_partial {C : Config} {X : POp → Prop} {a : State} {u h n : Nat} {l : PBlock} (hf : C.reallocFactor ≠ 0)
    (hr : Reach C X a) (hl : l ∈ a.G.live) (ho : l.owner ∈ a.E) (hu : u < a.s.chs.length) (hue : u ∉ a.E) (hn : n ≠ 0)
    (hb : GoodBound h) (hs : PSize (reqSize h n)) (hp : l.plain = true ∨ n ≤ l.len) (hm : OpMem a.s (.realloc u l.ptr h n))
    (hx : X (.realloc u l.ptr h n)) :
    ∃ s' r G', pexec C a.s (.realloc u l.ptr h n) = .ok (s', r) ∧ Reach C X ⟨s', G', a.E⟩ ∧
      (∃ b ∈ G'.live, b.owner = l.owner ∧ b.ptr = r ∧ b.len = n) ∧
      (∀ m ∈ a.G.live, m.ptr ≠ l.ptr → m ∈ G'.live) ∧
      (∀ i, i < min l.len n → s'.w.mem (r + i) = a.s.w.mem (l.ptr + i)) ∧
      ∀ m ∈ a.G.live, m.ptr ≠ l.ptr → ∀ x, m.Byte x → s'.w.mem x = a.s.w.mem x := by
  obtain ⟨μ, s, M⟩ := hr.mks (cl := False) hf False.elim
  obtain ⟨Ω, I⟩ := M.env
  have hpz := I.ptr hl
  have hheir : heir a.G a.E l.ptr = some l.owner := by
    cases e : heir a.G a.E l.ptr with
    | none => exact absurd ho (heir_none e l hl rfl)
    | some o =>
      obtain ⟨m, hm, hp, h1, _⟩ := heir_some e
      rw [I.live_inj hm hl hp] at h1
      rw [h1]
  have ha : asOwner a.G a.E (.realloc u l.ptr h n) = .realloc l.owner l.ptr h n := by
    unfold asOwner
    simp only
    rw [if_neg hn, hheir]; rfl
  have hv : Valid a (.realloc u l.ptr h n) := by
    refine ⟨?_, fun v hv => ?_⟩
    · rw [ha]
      exact ⟨by rw [M.len]; exact M.bound _ ho, hb, hs, Or.inr ⟨l, hl, rfl, Or.inr (Or.inr hp)⟩⟩
    · obtain rfl := Option.some.inj hv
      exact ⟨hu, hue⟩
  rcases M.resize (C := C) hf hv.1 hu hue False.elim hl ho hn with ⟨h1, _⟩ | ⟨s', r, d⟩
  · exact absurd hm h1
  have ok := d.ok
  rw [ha] at ok
  obtain ⟨hr0, _, hkeep⟩ := ok.realloc _ _ _ _ rfl (Or.inl hn)
  have hlive : (after a.G a.E (.realloc u l.ptr h n) r).live = (a.G.after (.realloc l.owner l.ptr h n) r).live := by
    unfold after; rw [ha]; rfl
  have hmine : a.G.mine l.owner l.ptr = true := by
    unfold PSpec.mine
    rw [List.any_eq_true]
    exact ⟨l, hl, by simp⟩
  have hG : a.G.after (.realloc l.owner l.ptr h n) r =
      (if r = l.ptr then { a.G with live := a.G.live.map (fun m => if m.ptr = l.ptr then { m with len := n } else m) }
      else (a.G.del l.owner l.ptr).add l.owner r n (decide (h ≤ 1))) := by
    unfold PSpec.after
    simp only
    rw [if_neg hpz, if_neg hn, if_pos hmine]
  have hoth : ∀ m ∈ a.G.live, m.ptr ≠ l.ptr → m ∈ (a.G.after (.realloc l.owner l.ptr h n) r).live := by
    intro m hm hne
    rw [hG]
    split
    · exact List.mem_map.2 ⟨m, hm, by rw [if_neg hne]⟩
    · unfold PSpec.add PSpec.del
      simp only
      rw [if_neg hr0]
      exact List.mem_cons_of_mem _ (List.mem_filter.2 ⟨hm, by simpa using hne⟩)
  refine ⟨s', r, after a.G a.E (.realloc u l.ptr h n) r, d.run, ?_, ?_, ?_, ?_, ?_⟩
  · obtain ⟨a0, h0, hst⟩ := hr
    exact ⟨a0, h0, .tail hst (.call hv hx d.run)⟩
  · rw [hlive, hG]
    split
    · rename_i hrp
      exact ⟨{ l with len := n }, List.mem_map.2 ⟨l, hl, by rw [if_pos rfl]⟩, rfl, hrp.symm, rfl⟩
    · refine ⟨⟨l.owner, r, n, decide (h ≤ 1)⟩, ?_, rfl, rfl, rfl⟩
      unfold PSpec.add
      rw [if_neg hr0]
      exact List.mem_cons_self
  · rw [hlive]; exact hoth
  · exact hkeep l hl rfl
  · intro m hm hne x hx
    exact ok.kept (fun _ _ h => by cases h) m hm m (hoth m hm hne) rfl x hx hx

/-- C57, at most once. In every reachable state, for every thread that has ended: its handler was called at most once; if it
was, its chain holds no bloc and no live block, and otherwise it has not been released. -/
theorem C57_once_partial {C : Config} {X : POp → Prop} {a : State} {t : Nat} (hf : C.reallocFactor ≠ 0) (h : Reach C X a)
    (ht : t ∈ a.E) :
    ∃ c, a.s.chs[t]? = some c ∧ c.handler = true ∧ c.threadSafe = true ∧
      ((c.calls = 0 ∧ c.dead = false) ∨ (c.calls = 1 ∧ c.dead = true ∧ c.cnt = 0 ∧ ∀ l, ¬ Of a t l)) := by
  obtain ⟨μ, s, M⟩ := h.mks (cl := False) hf False.elim
  obtain ⟨Ω, I⟩ := M.env
  obtain ⟨c, k, hc, hk, h1, h2⟩ := M.chain ht
  refine ⟨_, h1, rfl, rfl, ?_⟩
  cases k with
  | false => left; exact ⟨h2, rfl⟩
  | true =>
    right
    have hz := M.gone _ _ hk hc
    refine ⟨h2, rfl, hz, fun l hl => ?_⟩
    have := (I.chain hc).2.2.2 l hl.1 hl.2
    omega

/-- C57, threads that have not ended keep their chain as it is: no handler, not thread safe, never released. -/
theorem C57_running_partial {C : Config} {X : POp → Prop} {a : State} {t : Nat} {c : Chain} (hf : C.reallocFactor ≠ 0)
    (h : Reach C X a) (ht : t ∉ a.E) (hc : a.s.chs[t]? = some c) :
    c.dead = false ∧ c.lock = false ∧ c.threadSafe = false ∧ c.handler = false ∧ c.calls = 0 := by
  obtain ⟨μ, s, M⟩ := h.mks (cl := False) hf False.elim
  obtain ⟨Ω, I⟩ := M.env
  have hc' : s.chs[t]? = some c := by
    rw [M.eq, PS.marks_get, M.out ht] at hc
    cases e : s.chs[t]? with
    | none => rw [e] at hc; cases hc
    | some d => rw [e] at hc; exact hc
  obtain ⟨q, h1, _⟩ := I.chain hc'
  exact ⟨q.dead, q.lock, q.safe, q.handler, h1⟩

/-- C57, exactly when the last bloc goes. A thread that has a live block when it ends: at any time afterwards, whatever the
other threads did and whichever of them have ended too, its handler was called once if its chain holds no bloc, and was not
called if it holds one. -/
theorem C57_when_partial {C : Config} {X : POp → Prop} {a b : State} {t : Nat} {s1 : PS} (hf : C.reallocFactor ≠ 0)
    (h : Reach C X a) (hl : ∃ l, Of a t l) (ht : t ∉ a.E) (e : posixExit C a.s t = .ok s1)
    (hs : Steps C X ⟨s1, a.G.drain t, t :: a.E⟩ b) :
    ∃ c, b.s.chs[t]? = some c ∧ c.calls = if c.cnt = 0 then 1 else 0 := by
  obtain ⟨μ, s, M⟩ := h.mks (cl := False) hf False.elim
  obtain ⟨Ω, I⟩ := M.env
  obtain ⟨l, hl, ho⟩ := hl
  have hlt : t < a.s.chs.length := by
    have := (I.disj.2 l (List.mem_append_left _ hl)).2.1
    rw [M.len]; omega
  obtain ⟨μ1, s2, M1, _, hd, _⟩ := M.exit hlt ht e
  obtain ⟨hd, _⟩ := hd ⟨l, hl, ho⟩
  obtain ⟨μ2, s3, M2, hdue, _⟩ := hs.mks (cl := False) hf False.elim M1
  obtain ⟨c, k, hc, hk, hiff⟩ := hdue t hd
  obtain ⟨Ω2, I2⟩ := M2.env
  refine ⟨c.marked k false, ?_, ?_⟩
  · rw [M2.eq, PS.marks_get, hc, hk]; rfl
  · have h0 := (I2.chain hc).2.1
    show c.calls + (if k then 1 else 0) = if c.cnt = 0 then 1 else 0
    rw [h0]
    cases k with
    | false => rw [if_neg (fun h : c.cnt = 0 => by cases hiff.1 h)]; rfl
    | true => rw [if_pos (hiff.2 rfl)]; rfl

/-- C57, in terms of blocks: without requests just below the huge limit, the handler of a thread that had a live block when it
ended was called once if the thread has no live block left, and was not called if it has one. -/
theorem C57_when_blocks_partial {C : Config} {a b : State} {t : Nat} {s1 : PS} (hf : C.reallocFactor ≠ 0)
    (h : Reach C CleanOp a) (hl : ∃ l, Of a t l) (ht : t ∉ a.E) (e : posixExit C a.s t = .ok s1)
    (hs : Steps C CleanOp ⟨s1, a.G.drain t, t :: a.E⟩ b) :
    ∃ c, b.s.chs[t]? = some c ∧ (c.calls = 1 ↔ ∀ l, ¬ Of b t l) ∧ (c.calls = 0 ↔ ∃ l, Of b t l) := by
  obtain ⟨c, hc, hcalls⟩ := C57_when_partial hf h hl ht e hs
  have hb : Reach C CleanOp b := by
    obtain ⟨a0, h0, hst⟩ := h
    have hlt : t < a.s.chs.length := by
      obtain ⟨μ, s, M⟩ := Reach.mks (cl := False) hf False.elim ⟨a0, h0, hst⟩
      obtain ⟨Ω, I⟩ := M.env
      obtain ⟨l, hl, ho⟩ := hl
      have := (I.disj.2 l (List.mem_append_left _ hl)).2.1
      rw [M.len]; omega
    refine ⟨a0, h0, ?_⟩
    have h1 : Steps C CleanOp a0 ⟨s1, a.G.drain t, t :: a.E⟩ := .tail hst (.exit hlt ht e)
    clear hcalls hc
    induction hs with
    | refl => exact h1
    | tail _ st ih => exact .tail ih st
  have hbE : t ∈ b.E := by
    clear hcalls hc hb
    induction hs with
    | refl => exact List.mem_cons_self
    | tail _ st ih =>
      cases st with
      | call => exact ih
      | exit => exact List.mem_cons_of_mem _ ih
  obtain ⟨μ, s, M⟩ := hb.mks (cl := True) hf (fun _ _ h => h)
  obtain ⟨Ω, I⟩ := M.env
  obtain ⟨d, k, hd, hk, h1, _⟩ := M.chain hbE
  obtain rfl := Option.some.inj (h1.symm.trans hc)
  have hcalls : (d.marked k false).calls = if d.cnt = 0 then 1 else 0 := hcalls
  have key : d.cnt = 0 ↔ ∀ l, ¬ Of b t l := by
    constructor
    · intro hz l hl
      have := (I.chain hd).2.2.2 l hl.1 hl.2
      omega
    · intro hn
      refine I.chain_empty hd (fun l hl ho => ?_)
      rcases List.mem_append.1 hl with hl | hl
      · exact hn l ⟨hl, ho⟩
      · exact M.pend l hl (ho ▸ hbE)
  refine ⟨_, hc, ?_, ?_⟩
  · rw [← key, hcalls]
    by_cases hz : d.cnt = 0 <;> simp [hz]
  · rw [← not_forall_not, ← key, hcalls]
    by_cases hz : d.cnt = 0 <;> simp [hz]

/-- C57: a thread that has a live block can end, whichever threads have ended before; its chain stays, its blocks stay live and
the bytes of all the live blocks keep their value. -/
theorem C57_exit_partial {C : Config} {X : POp → Prop} {a : State} {t : Nat} (hf : C.reallocFactor ≠ 0) (h : Reach C X a)
    (hl : ∃ l, Of a t l) (ht : t ∉ a.E) :
    ∃ s1 c, posixExit C a.s t = .ok s1 ∧ Reach C X ⟨s1, a.G.drain t, t :: a.E⟩ ∧ s1.chs[t]? = some c ∧ c.calls = 0 ∧
      c.dead = false ∧ ∀ l ∈ a.G.live, ∀ x, l.Byte x → s1.w.mem x = a.s.w.mem x := by
  obtain ⟨μ, s, M⟩ := h.mks (cl := False) hf False.elim
  obtain ⟨Ω, I⟩ := M.env
  obtain ⟨s1, e⟩ := M.exit_ok (C := C) ht hl
  have hl' := hl
  obtain ⟨l, hl, ho⟩ := hl
  have hlt : t < a.s.chs.length := by
    have := (I.disj.2 l (List.mem_append_left _ hl)).2.1
    rw [M.len]; omega
  obtain ⟨μ1, s2, M1, _, hd, _, _, hkeep⟩ := M.exit hlt ht e
  obtain ⟨_, hk⟩ := hd ⟨l, hl, ho⟩
  obtain ⟨c, k, hc, hk', h1, h2⟩ := M1.chain List.mem_cons_self
  rw [hk] at hk'
  obtain rfl := Option.some.inj hk'
  obtain ⟨a0, h0, hst⟩ := h
  exact ⟨s1, _, e, ⟨a0, h0, .tail hst (.exit hlt ht e)⟩, h1, h2, rfl, hkeep⟩

/-- The free of the last live block of a thread that has ended. -/
theorem last_free {C : Config} {a : State} {t u z : Nat} {l : PBlock} (hf : C.reallocFactor ≠ 0) (h : Reach C CleanOp a)
    (ht : t ∈ a.E) (hl : Of a t l) (hp : l.plain = true) (hone : ∀ m, Of a t m → m.ptr = l.ptr) (hu : u < a.s.chs.length)
    (hue : u ∉ a.E) (hz : posixGetSize a.s.w.mem l.ptr = .ok z) :
    (calcChunkSize (z + 16) ≤ 1048576 ∧ pexec C a.s (.free u l.ptr) = .ub) ∨
    (1048576 < calcChunkSize (z + 16) ∧ ∃ s' c, pexec C a.s (.free u l.ptr) = .ok (s', 0) ∧ s'.chs[t]? = some c ∧
      c.calls = 1 ∧ c.cnt = 0) := by
  obtain ⟨μ, s, M⟩ := h.mks (cl := True) hf (fun _ _ h => h)
  obtain ⟨Ω, I⟩ := M.env
  have hF : Frees (.free u l.ptr) l.ptr := Or.inl ⟨u, rfl⟩
  obtain ⟨hg, hgz, n, _, hn, hr⟩ := M.freed (C := C) hF (fun v hv => by obtain rfl := Option.some.inj hv; exact ⟨hu, hue⟩)
    hl.1 (hl.2 ▸ ht)
  have hgz := hgz hp z hz
  have h0 : n = 0 := hn trivial (fun m hm ho => by
    obtain ⟨h1, h2⟩ := (after_live hF (I.ptr hl.1)).1 hm
    exact h2 (hone m ⟨h1, ho.trans hl.2⟩))
  rcases hr with ⟨_, hng, e⟩ | ⟨hh, s', d, c, hc, hcnt, hcalls⟩
  · left
    rw [hgz] at hng
    exact ⟨by omega, e⟩
  · right
    rw [hl.2] at hc
    exact ⟨hgz.1 (hh h0), s', c, d.run, hc, by rw [hcalls, if_pos h0], by rw [hcnt, h0]⟩

/-- C57, the last block of a thread that has ended is huge: its free by another thread calls the handler. -/
theorem C57_last_huge_partial {C : Config} {a : State} {t u z : Nat} {l : PBlock} (hf : C.reallocFactor ≠ 0)
    (h : Reach C CleanOp a) (ht : t ∈ a.E) (hl : Of a t l) (hp : l.plain = true) (hone : ∀ m, Of a t m → m.ptr = l.ptr)
    (hu : u < a.s.chs.length) (hue : u ∉ a.E) (hz : posixGetSize a.s.w.mem l.ptr = .ok z)
    (hbig : 1048576 < calcChunkSize (z + 16)) :
    ∃ s' c, pexec C a.s (.free u l.ptr) = .ok (s', 0) ∧ s'.chs[t]? = some c ∧ c.calls = 1 ∧ c.cnt = 0 := by
  rcases last_free hf h ht hl hp hone hu hue hz with ⟨h1, _⟩ | ⟨_, h2⟩
  · omega
  · exact h2

/-- C57 is false when the last block of a thread that has ended is not huge, whatever happened before: the chain is used after
it has been released. -/
theorem C57_refuted_locked {C : Config} {a : State} {t u z : Nat} {l : PBlock} (hf : C.reallocFactor ≠ 0)
    (h : Reach C CleanOp a) (ht : t ∈ a.E) (hl : Of a t l) (hp : l.plain = true) (hone : ∀ m, Of a t m → m.ptr = l.ptr)
    (hu : u < a.s.chs.length) (hue : u ∉ a.E) (hz : posixGetSize a.s.w.mem l.ptr = .ok z)
    (hsmall : calcChunkSize (z + 16) ≤ 1048576) : pexec C a.s (.free u l.ptr) = .ub := by
  rcases last_free hf h ht hl hp hone hu hue hz with ⟨_, h1⟩ | ⟨h2, _⟩
  · exact h1
  · omega

/-- C57, everything goes back. Without requests just below the huge limit, once no block is live and none waits for its
thread, whichever threads have ended: the source has got back all its blocs, no region is registered, and the chains of all the
threads count no bloc. -/
theorem C57_returned_partial {C : Config} {a : State} (hf : C.reallocFactor ≠ 0) (h : Reach C CleanOp a)
    (hl : a.G.live = []) (hp : a.G.pend = []) :
    a.s.w.src.counter = 0 ∧ (∀ k, a.s.w.regs.ent k = 0) ∧ ∀ c ∈ a.s.chs, c.cnt = 0 := by
  obtain ⟨μ, s, M⟩ := h.mks (cl := True) hf (fun _ _ h => h)
  obtain ⟨Ω, hΩ, I⟩ := M.inv_ex
  have hch : ∀ (t : Nat) (c : Chain), s.chs[t]? = some c → c.cnt = 0 := by
    intro t c hc
    refine I.chain_empty hc (fun l h => ?_)
    rw [hl, hp] at h; cases h
  have hGG : a.G = ⟨[], []⟩ := by cases hG : a.G; rw [hG] at hl hp; simp only at hl hp; rw [hl, hp]
  rw [hGG] at I
  obtain ⟨H, L, P, B, hsh⟩ := I.empty
  rw [M.world]
  refine ⟨by rw [B.lin.cnt, hsh]; rfl, fun k => ?_, fun c hc => ?_⟩
  · by_contra hk
    obtain ⟨d, hd, _⟩ := B.reg.own k hk
    have hd : d ∈ shapes H ++ Ω.blocs := hd
    rw [hsh, hΩ] at hd
    cases hd
  · obtain ⟨t, ht⟩ := List.mem_iff_getElem?.1 hc
    rw [M.eq, PS.marks_get] at ht
    cases e : s.chs[t]? with
    | none => rw [e] at ht; cases ht
    | some d =>
      rw [e] at ht
      have h0 := hch t d e
      have ht := Option.some.inj ht
      cases hm : μ t with
      | none => rw [hm] at ht; rw [← ht]; exact h0
      | some k => rw [hm] at ht; rw [← ht]; exact h0

/-- C57 is false for a thread that has no block left when it ends: its handler is never called, so its chain is never released,
whatever the other threads do. -/
theorem C57_refuted_empty {C : Config} {a : State} {t : Nat} (hf : C.reallocFactor ≠ 0) (h : Reach C CleanOp a)
    (ht : t < a.s.chs.length) (hE : t ∉ a.E) (hl : ∀ l ∈ a.G.live ++ a.G.pend, l.owner ≠ t) :
    ∃ s1, posixExit C a.s t = .ok s1 ∧ Reach C CleanOp ⟨s1, a.G.drain t, t :: a.E⟩ ∧
      ∀ b, Steps C CleanOp ⟨s1, a.G.drain t, t :: a.E⟩ b →
        ∃ c, b.s.chs[t]? = some c ∧ c.cnt = 0 ∧ c.calls = 0 ∧ c.dead = false := by
  obtain ⟨μ, s, M⟩ := h.mks (cl := True) hf (fun _ _ h => h)
  obtain ⟨Ω, I⟩ := M.env
  have ht' : t < s.chs.length := by rw [← M.len]; exact ht
  obtain ⟨c, hc⟩ : ∃ c, s.chs[t]? = some c := ⟨_, List.getElem?_eq_getElem ht'⟩
  have hq := I.noPend hc (fun l h => hl l (List.mem_append_right _ h))
  have hz := I.chain_empty hc hl
  obtain ⟨s1, e⟩ := M.exit_idle (C := C) hE hc hq
  obtain ⟨μ1, s2, M1, _, _, _, hi, _⟩ := M.exit ht hE e
  have hi := hi (fun d hd => by rw [hc] at hd; obtain rfl := Option.some.inj hd; exact ⟨hq, hz⟩)
  obtain ⟨a0, h0, hst⟩ := h
  refine ⟨s1, e, ⟨a0, h0, .tail hst (.exit ht hE e)⟩, fun b hs => ?_⟩
  obtain ⟨μ2, s3, M2, _, hidle⟩ := hs.mks (cl := True) hf (fun _ _ h => h) M1
  obtain ⟨d, h1, h2, h3⟩ := hidle t hi
  obtain ⟨Ω2, I2⟩ := M2.env
  refine ⟨d.marked false false, ?_, h3, ?_, rfl⟩
  · rw [M2.eq, PS.marks_get, h1, h2]; rfl
  · have h0 := (I2.chain h1).2.1
    show d.calls + 0 = 0
    rw [h0]

/-! ## Concrete cases -/

/-- A process of two threads, of which the first has ended and left a block of `n` bytes. -/
theorem sample_one {C : Config} (hf : C.reallocFactor ≠ 0) {n : Nat} (hn : 0 < n) (hs : PSize n) (h30 : n ≤ 1073741824)
    (hc : CleanSize n) :
    ∃ s0 s r z, Reach C CleanOp ⟨s0, ⟨[⟨0, r, n, true⟩], []⟩, []⟩ ∧ posixExit C s0 0 = .ok s ∧
      Reach C CleanOp ⟨s, ⟨[⟨0, r, n, true⟩], []⟩, [0]⟩ ∧ s0.chs.length = 2 ∧ s.chs.length = 2 ∧
      posixGetSize s.w.mem r = .ok z ∧
      ((calcChunkSize n ≤ 1048576 ∧ z + 16 < cutSize n + 32) ∨ (1048576 < calcChunkSize n ∧ z + 16 = blocSize n - 48)) := by
  obtain ⟨s0, s, r, z, h0, e, ⟨_, hlen⟩, hl, hz, hk⟩ := sample_ended hf hn hs h30 hc
  have R0 := reach_of h0
  have hl0 : s0.chs.length = 2 := by
    unfold posixExit at e
    obtain ⟨x, _, e⟩ := Outcome.bind_eq_ok e
    obtain ⟨y, _, e⟩ := Outcome.bind_eq_ok e
    have e := Outcome.ok.inj e
    rw [← e, PS.put_len] at hl
    exact hl
  obtain ⟨a0, ha, hst⟩ := id R0
  exact ⟨s0, s, r, z, R0, e, ⟨a0, ha, .tail hst (.exit (a := ⟨s0, _, []⟩) (by show 0 < s0.chs.length; omega) (by simp) e)⟩, hl0, hl, hz, hk⟩

/-- The kernel after the allocation of a block of 16 MB. -/
theorem malloc_os {s s' : PS} {G : PSpec} {r : Nat} {C : Config} (hC : C.keepMax < 18874368) {Ω : Env} (I : PInv Ω True s G)
    (ht : 0 < s.chs.length) (hp : ∀ l ∈ G.pend, l.owner ≠ 0) (e : posixMalloc C 0 s 0 16777216 = .ok (s', r)) :
    s'.w.src.os = (mmap s.w.mem s.w.src.os 18874368).2.1 := by
  have hc := List.getElem?_eq_getElem ht
  have hq := I.noPend hc hp
  obtain ⟨q, _⟩ := I.chain hc
  have hd := q.dead
  simp only at hd
  have hsrc : (s.chs[0]).hasSrc = true := by
    obtain ⟨H, L, P, B, K⟩ := I
    obtain ⟨c', g, hc', hg, T⟩ := B.get ht
    obtain rfl : c' = s.chs[0] := Option.some.inj (hc'.symm.trans hc)
    exact T.ch.src
  have hcalc : calcChunkSize 16777216 = 16777232 := by rw [calc_eq (by omega)]; omega
  have hreq : requestSize 16777216 = 18874368 := by decide
  unfold posixMalloc purgeRfq at e
  rw [PS.loc_eq hc, Outcome.ok_bind, if_neg (by simp [hd]), if_pos (by exact hq), Outcome.ok_bind, if_neg (by omega)] at e
  unfold chainAlloc allocAlign at e
  simp only at e
  have h01 : (if (0 : Nat) > 1 then add64 16777216 0 else 16777216) = 16777216 := if_neg (by omega)
  rw [if_neg (by simp [hd]), if_neg (by omega), h01, if_pos (by unfold isHuge; rw [hsrc, hcalc]; decide),
    OnNode.requestMem_take] at e
  cases e1 : OnNode.takeBloc (lightSource C) ⟨s.w, s.chs[0]⟩ 16777216 with
  | ok p =>
    obtain ⟨u, v⟩ := p
    obtain ⟨_, _, h3⟩ := OnNode.takeBloc_out e1 hsrc (by rw [hreq]; exact hC)
    rw [hreq] at h3
    rw [e1, OnNode.ok_bind', Outcome.ok_bind] at e
    simp only [Outcome.pure_eq, Outcome.ok_bind] at e
    have e := (Prod.mk.inj (Outcome.ok.inj e)).1
    rw [← e, ← h3]
    unfold PS.put padAndReturn OnNode.adj
    simp only
    split <;> rfl
  | ub => rw [e1] at e; cases e
  | abort => rw [e1] at e; cases e
  | diverge => rw [e1] at e; cases e

/-- A process of two threads, of which the first has ended and left a block of 16 MB; the kernel has memory. -/
theorem sample_big : ∃ s r, Reach Config.default CleanOp ⟨s, ⟨[⟨0, r, 16777216, true⟩], []⟩, [0]⟩ ∧ s.chs.length = 2 ∧
    ∀ N, N ≤ 1073741824 → HasMem s N := by
  have hf : Config.default.reallocFactor ≠ 0 := by decide
  obtain ⟨s0, h, hl, h1, h2, h3⟩ := sample_threads_os (C := Config.default) (X := CleanOp) hf (fun _ _ _ => trivial)
  have hr : reqSize 0 16777216 = 16777216 := by decide
  have fr : s0.w.src.os.Fresh 1099511627776 18874368 := by
    have hp : pageUp 18874368 = 18874368 := by decide
    exact ⟨by omega, by omega, by omega, by rw [hp]; omega, fun i _ => h3 _ (by omega)⟩
  have m : HasMem s0 16777216 := by
    unfold HasMem
    rw [h1, h2]
    show s0.w.src.os.Fresh 1099511627776 _
    have hp : pageUp (16777216 + 80 + MB2) = 18878464 := by decide
    exact ⟨by omega, by omega, by omega, by rw [hp]; omega, fun i _ => h3 _ (by omega)⟩
  have v : PValid s0 ⟨[], []⟩ (.malloc 0 0 16777216) := ⟨by omega, Or.inl (by omega), by rw [hr]; unfold PSize; decide⟩
  obtain ⟨s, r, e, ok⟩ := C30_calls_partial hf h v (by show HasMem s0 (reqSize 0 16777216); rw [hr]; exact m)
  have hcl : CleanOp (.malloc 0 0 16777216) := by show CleanSize (reqSize 0 16777216); rw [hr]; unfold CleanSize; omega
  have h' := PReach.step h v hcl e
  have hr0 := (ok.malloc _ _ _ rfl).1
  have hG : PSpec.after ⟨[], []⟩ (.malloc 0 0 16777216) r = ⟨[⟨0, r, 16777216, true⟩], []⟩ := by
    unfold PSpec.after PSpec.add PSpec.drain
    simp only [List.filter_nil]
    rw [if_neg hr0]; rfl
  rw [hG] at h'
  have I0 := h.inv (cl := True) hf (fun _ _ h => h)
  have hos := malloc_os (by decide) I0 (by omega) (fun l hl => by cases hl) (show posixMalloc _ _ _ _ _ = _ from e)
  have hlen : s.chs.length = 2 := by
    rcases memalign_op (C := Config.default) I0 v.1 v.2.1 v.2.2 (fun _ => hcl) with ⟨_, e'⟩ | ⟨s', r', e', _, _, _, _, _, len⟩
    · have e' : pexec Config.default s0 (.malloc 0 0 16777216) = .ub := e'
      rw [e'] at e; cases e
    · have e' : pexec Config.default s0 (.malloc 0 0 16777216) = .ok (s', r') := e'
      rw [e'] at e
      obtain ⟨rfl, _⟩ := Prod.mk.inj (Outcome.ok.inj e)
      omega
  have I := h'.inv (cl := True) hf (fun _ _ h => h)
  have hlt : 0 < s.chs.length := by omega
  have ex := exit_noPend (C := Config.default) I (List.getElem?_eq_getElem hlt) (fun l hl => by cases hl)
  obtain ⟨a0, ha, hst⟩ := reach_of h'
  refine ⟨_, r, ⟨a0, ha, .tail hst (.exit (a := ⟨s, _, []⟩) hlt (by simp) ex)⟩, by rw [PS.over_len]; exact hlen, fun N hN => ?_⟩
  show s.w.src.os.Fresh (s.w.src.os.ans s.w.src.os.k) _
  have hans : s0.w.src.os.ans s0.w.src.os.k = 1099511627776 := by rw [h1, h2]; rfl
  unfold mmap at hos
  simp only at hos
  rw [hans, if_pos fr] at hos
  rw [hos]
  show Os.Fresh _ (s0.w.src.os.ans (s0.w.src.os.k + 1)) _
  rw [h1, h2]
  show Os.Fresh _ 1103806595072 _
  have hp : pageUp (N + 80 + MB2) ≤ 2147483648 := by unfold pageUp; omega
  have hp2 : pageUp 18874368 = 18874368 := by decide
  refine ⟨by omega, by omega, by omega, by omega, fun i _ => ?_⟩
  show (if 1099511627776 ≤ 1103806595072 + i ∧ 1103806595072 + i < 1099511627776 + pageUp 18874368 then true else
    s0.w.src.os.used (1103806595072 + i)) = false
  rw [hp2, if_neg (by omega)]
  exact h3 _ (by omega)

/-- Hypotheses of `C57_blocks_partial`, `C57_once_partial`, `C57_running_partial`, `C57_calls_partial` (the second thread asks
for 1000 bytes) and `C57_resize_partial` (it makes the block of the first thread larger). -/
example : ∃ a : State, Reach Config.default CleanOp a ∧ 0 ∈ a.E ∧ 1 ∉ a.E ∧ (∃ c, a.s.chs[1]? = some c) ∧
    (Valid a (.malloc 1 0 1000) ∧ OpMem a.s (.malloc 1 0 1000) ∧
      ∀ t l, t ∈ a.E → Of a t l → Frees (.malloc 1 0 1000) l.ptr → ∃ m, Of a t m ∧ m.ptr ≠ l.ptr) ∧
    ∃ l ∈ a.G.live, l.owner ∈ a.E ∧ l.plain = true ∧ l.len = 16777216 ∧ 1 < a.s.chs.length ∧ GoodBound 0 ∧
      PSize (reqSize 0 33554432) ∧ OpMem a.s (.realloc 1 l.ptr 0 33554432) ∧ CleanOp (.realloc 1 l.ptr 0 33554432) := by
  obtain ⟨s, r, h, hl, hm⟩ := sample_big
  have h1 : reqSize 0 33554432 = 33554432 := by decide
  have h2 : reqSize 0 1000 = 1000 := by decide
  refine ⟨_, h, List.mem_singleton.2 rfl, by simp, ⟨_, List.getElem?_eq_getElem (by show 1 < s.chs.length; omega)⟩,
    ⟨⟨⟨by show 1 < s.chs.length; omega, Or.inl (by omega), by rw [h2]; unfold PSize; decide⟩, fun u hu => ?_⟩, ?_, ?_⟩,
    ⟨0, r, 16777216, true⟩, List.mem_singleton.2 rfl, List.mem_singleton.2 rfl, rfl, rfl, by show 1 < s.chs.length; omega,
    Or.inl (by omega), by rw [h1]; unfold PSize; decide, ?_, ?_⟩
  · obtain rfl := Option.some.inj hu
    exact ⟨by show 1 < s.chs.length; omega, by simp⟩
  · show HasMem s (reqSize 0 1000); rw [h2]; exact hm _ (by omega)
  · intro t l _ _ hF
    rcases hF with ⟨_, h⟩ | ⟨_, _, h⟩ <;> cases h
  · show HasMem s (reqSize 0 33554432); rw [h1]; exact hm _ (by omega)
  · show CleanSize (reqSize 0 33554432); rw [h1]; unfold CleanSize; omega

/-- Hypotheses of `C57_exit_partial`, `C57_when_partial` and `C57_when_blocks_partial`. -/
example : ∃ (a : State) (s1 : PS), Reach Config.default CleanOp a ∧ (∃ l, Of a 0 l) ∧ 0 ∉ a.E ∧
    posixExit Config.default a.s 0 = .ok s1 ∧ Steps Config.default CleanOp ⟨s1, a.G.drain 0, 0 :: a.E⟩ ⟨s1, a.G.drain 0, 0 :: a.E⟩ := by
  obtain ⟨s0, s, r, z, h0, e, _⟩ := sample_one (C := Config.default) (by decide) (n := 100) (by omega)
    (by unfold PSize; omega) (by omega) (by unfold CleanSize; omega)
  exact ⟨_, s, h0, ⟨_, List.mem_singleton.2 rfl, rfl⟩, by simp, e, .refl⟩

/-- Hypotheses of `C57_last_huge_partial` and then of `C57_returned_partial`: the second thread frees the huge block of the
first, and the handler of the first is called. -/
example : ∃ a : State, Reach Config.default CleanOp a ∧ a.G.live = [] ∧ a.G.pend = [] ∧ 0 ∈ a.E ∧
    ∃ c, a.s.chs[0]? = some c ∧ c.calls = 1 := by
  obtain ⟨s0, s, r, z, h0, e, h, hl0, hl, hz, hk⟩ := sample_one (C := Config.default) (by decide) (n := 1500000) (by omega)
    (by unfold PSize; omega) (by omega) (by unfold CleanSize; omega)
  have hc : calcChunkSize 1500000 = 1500016 := by rw [calc_eq (by omega)]; omega
  have hb : blocSize 1500000 = 2097152 := by unfold blocSize; omega
  have hz2 : z + 16 = 2097104 := by omega
  have hcz : calcChunkSize (z + 16) = 2097120 := by rw [hz2, calc_eq (by omega)]; omega
  obtain ⟨s', c, e1, e2, e3, _⟩ := C57_last_huge_partial (u := 1) (t := 0) (by decide) h (List.mem_singleton.2 rfl)
    (l := ⟨0, r, 1500000, true⟩) ⟨List.mem_singleton.2 rfl, rfl⟩ rfl
    (fun m hm => by rw [List.mem_singleton.1 hm.1]) (by show 1 < s.chs.length; omega) (by simp) hz (by omega)
  have v : Valid ⟨s, ⟨[⟨0, r, 1500000, true⟩], []⟩, [0]⟩ (.free 1 r) :=
    ⟨⟨by show 1 < s.chs.length; omega, Or.inr ⟨_, List.mem_singleton.2 rfl, rfl⟩⟩, fun u hu => by
      obtain rfl := Option.some.inj hu
      exact ⟨by show 1 < s.chs.length; omega, by simp⟩⟩
  obtain ⟨a0, ha, hst⟩ := h
  refine ⟨_, ⟨a0, ha, .tail hst (.call v trivial e1)⟩, ?_, ?_, List.mem_singleton.2 rfl, c, e2, e3⟩
  · simp [after, asOwner, drainAll, PSpec.after, PSpec.del, PSpec.drain]
  · simp [after, asOwner, drainAll, PSpec.after, PSpec.del, PSpec.drain]

/-- C57 is false: hypotheses of `C57_refuted_locked`. -/
theorem C57_refuted : ∃ C a r, Reach C CleanOp a ∧ Valid a (.free 1 r) ∧ OpMem a.s (.free 1 r) ∧
    pexec C a.s (.free 1 r) = .ub := by
  obtain ⟨s0, s, r, z, h0, e, h, hl0, hl, hz, hk⟩ := sample_one (C := Config.default) (by decide) (n := 100) (by omega)
    (by unfold PSize; omega) (by omega) (by unfold CleanSize; omega)
  have hc : calcChunkSize 100 = 116 := by rw [calc_eq (by omega)]; omega
  have hz2 : z + 16 < 200 := by unfold cutSize at hk; omega
  have hcz : calcChunkSize (z + 16) ≤ 1048576 := by rw [calc_eq (by omega)]; omega
  refine ⟨_, _, r, h, ⟨⟨by show 1 < s.chs.length; omega, Or.inr ⟨_, List.mem_singleton.2 rfl, rfl⟩⟩, fun u hu => ?_⟩, trivial,
    C57_refuted_locked (u := 1) (t := 0) (by decide) h (List.mem_singleton.2 rfl) (l := ⟨0, r, 100, true⟩)
      ⟨List.mem_singleton.2 rfl, rfl⟩ rfl (fun m hm => by rw [List.mem_singleton.1 hm.1]) (by show 1 < s.chs.length; omega)
      (by simp) hz hcz⟩
  obtain rfl := Option.some.inj hu
  exact ⟨by show 1 < s.chs.length; omega, by simp⟩

/-- Hypotheses of `C57_refuted_empty`: the second thread ends too, and both have ended. -/
example : ∃ a : State, Reach Config.default CleanOp a ∧ a.E = [1, 0] := by
  obtain ⟨s, r, h, hl, _⟩ := sample_big
  obtain ⟨s1, e, h1, _⟩ := C57_refuted_empty (t := 1) (by decide) h (by show 1 < s.chs.length; omega) (by simp) (fun l hl => by
    rcases List.mem_append.1 hl with hl | hl
    · rw [List.mem_singleton.1 hl]; simp
    · cases hl)
  exact ⟨_, h1, rfl⟩

end MpcAlloc.Ends
