import Verif.EggLemmas
import Verif.PropsPosix

/-
Properties of the start of the process and of the creation of threads (C46).
-/

namespace MpcAlloc

/-- Bytes of the structure of a chain. -/
def Chain.Byte (c : Chain) (x : Nat) : Prop := c.addr ≤ x ∧ x < c.addr + 1680

/-- Areas of `k` bytes that do not overlap, between `b` and `b + M`, are at most `M / k`. -/
theorem packed {k b M : Nat} : ∀ {l : List Nat} (_ : l.Pairwise (fun x y => x + k ≤ y ∨ y + k ≤ x))
    (_ : ∀ x ∈ l, b ≤ x ∧ x + k ≤ b + M), l.length * k ≤ M := by
  intro l
  induction hn : l.length generalizing l M with
  | zero => intro _ _; simp
  | succ n ih =>
    intro hp hb
    have hne : l ≠ [] := by rintro rfl; simp at hn
    obtain ⟨m, hm, hmax⟩ : ∃ m ∈ l, ∀ x ∈ l, x ≤ m := by
      clear hp hb hn ih
      induction l with
      | nil => exact absurd rfl hne
      | cons y ys ih =>
        by_cases hy : ys = []
        · subst hy; exact ⟨y, by simp, by simp⟩
        · obtain ⟨m, hm, h⟩ := ih hy
          by_cases hle : y ≤ m
          · exact ⟨m, List.mem_cons_of_mem _ hm, fun x hx => by
              rcases List.mem_cons.1 hx with rfl | hx
              · exact hle
              · exact h x hx⟩
          · exact ⟨y, by simp, fun x hx => by
              rcases List.mem_cons.1 hx with rfl | hx
              · exact Nat.le_refl _
              · have := h x hx; omega⟩
    have hperm := List.perm_cons_erase hm
    have hp2 := (hperm.pairwise_iff (by intro x y h; exact h.symm)).1 hp
    rw [List.pairwise_cons] at hp2
    have hlen : (l.erase m).length = n := by rw [List.length_erase_of_mem hm, hn]; rfl
    have h1 := hb m hm
    have := ih (M := m - b) hlen hp2.2 (fun x hx => by
      have h2 := hp2.1 x hx
      have h3 := hb x (List.mem_of_mem_erase hx)
      have h4 := hmax x (List.mem_of_mem_erase hx)
      by_cases hk : k = 0
      · omega
      · omega)
    rw [Nat.succ_mul]
    omega

/-- The structure of a thread is in the buffer of the egg chain. -/
theorem EInv.inside {cl : Prop} {e : ES} {G : PSpec} {a buf : Nat} {Ω : Env} {A : AHeap} {Lb : List Block}
    (I : EInv cl e G a buf Ω A Lb) {t : Nat × Nat} (ht : t ∈ Ω.ths) :
    buf ≤ t.1 ∧ t.1 + CHAIN_SIZE ≤ buf + MB2 := by
  have h1 := I.seg.1 (I.h.wf.user_seg (I.user ht (x := t.1) (Nat.le_refl _) (by unfold CHAIN_SIZE; omega)))
  have h2 := I.seg.1 (I.h.wf.user_seg (I.user ht (x := t.1 + 1679) (by omega) (by unfold CHAIN_SIZE; omega)))
  unfold CHAIN_SIZE
  omega

theorem EInv.count {cl : Prop} {e : ES} {G : PSpec} {a buf : Nat} {Ω : Env} {A : AHeap} {Lb : List Block}
    (I : EInv cl e G a buf Ω A Lb) : Ω.ths.length ≤ 1248 := by
  have h := packed (k := CHAIN_SIZE) (b := buf) (M := MB2) (l := Ω.ths.map Prod.fst)
    (List.pairwise_map.2 I.disj) (by
      intro x hx
      obtain ⟨t, ht, rfl⟩ := List.mem_map.1 hx
      exact I.inside ht)
  rw [List.length_map] at h
  unfold CHAIN_SIZE at h
  omega

/-- The structures of the threads and their blocks. -/
theorem EInv.structures {cl : Prop} {e : ES} {G : PSpec} {a buf : Nat} {Ω : Env} {A : AHeap} {Lb : List Block}
    (I : EInv cl e G a buf Ω A Lb) :
    e.p.chs.Pairwise (fun c c' => ∀ x, ¬ (c.Byte x ∧ c'.Byte x)) ∧
    (∀ c ∈ e.p.chs, ∀ l ∈ G.live ++ G.pend, ∀ x, ¬ (c.Byte x ∧ l.Byte x)) ∧
    (G.live ++ G.pend).Pairwise PBlock.Disj := by
  have hth : ∀ c ∈ e.p.chs, buf ≤ c.addr ∧ c.addr + 1680 ≤ buf + MB2 := by
    intro c hc
    obtain ⟨H, L, D, B, _⟩ := I.p
    have : c.addr ∈ Ω.ths.map Prod.fst := by
      have := B.env.addrs
      exact this ▸ List.mem_map_of_mem hc
    obtain ⟨t, ht, e1⟩ := List.mem_map.1 this
    have := I.inside ht
    unfold CHAIN_SIZE at this
    omega
  refine ⟨?_, ?_, I.p.disj.1⟩
  · obtain ⟨H, L, D, B, _⟩ := I.p
    have h1 : (e.p.chs.map Chain.addr).Pairwise (fun x y => x + 1680 ≤ y ∨ y + 1680 ≤ x) := by
      rw [B.env.addrs]
      exact List.pairwise_map.2 I.disj
    refine (List.pairwise_map.1 h1).imp ?_
    intro c c' hcc x hx
    unfold Chain.Byte at hx
    omega
  · intro c hc l hl x hx
    have hb := hth c hc
    obtain ⟨H, L, D, B, K⟩ := I.p
    have hall : ∃ g k, H[l.owner]? = some g ∧ g.A.Used k ∧ k.uptr = l.ptr ∧ l.ptr + l.len ≤ k.addr + k.size := by
      rcases List.mem_append.1 hl with h | h
      · obtain ⟨g, k, h1, h2, _, h3, h4, _⟩ := K.live l h
        exact ⟨g, k, h1, h2, h3, h4⟩
      · obtain ⟨g, k, h1, h2, h3, h4⟩ := K.pend l h
        obtain ⟨c, _, T⟩ := B.getH h1
        exact ⟨g, k, h1, T.q.used k h2, h3, h4⟩
    obtain ⟨g, k, hg, hk, h3, h4⟩ := hall
    obtain ⟨c', hc', T⟩ := B.getH hg
    obtain ⟨d, hd, d1, d2⟩ := seg_of_has T.ch.wf hk.1
    have hge := T.ch.wf.uptr_ge k
    have hm := (B.ext (buf, MB2) (by show _ ∈ Ω.blocs; rw [I.blocs]; simp)).1
    unfold Chain.Byte PBlock.Byte at hx
    have := B.resD _ hm d (List.mem_append_left _ (mem_shapes.2 ⟨_, g, hg, hd⟩)) x (by simp only; omega)
      (by simp only; omega)
    omega

/-- **C46** (partial: at most 1248 threads, see `C46_refuted`; build without hwloc, calls one at a time). Whatever the
threads do, the structures of their chains do not overlap, and share no byte with any block of any thread. -/
theorem C46_structures_partial {C : Config} {X : EOp → Prop} {e : ES} {G : PSpec} (hf : C.reallocFactor ≠ 0)
    (h : EReach C X e G) :
    e.p.chs.Pairwise (fun c c' => ∀ x, ¬ (c.Byte x ∧ c'.Byte x)) ∧
    (∀ c ∈ e.p.chs, ∀ l ∈ G.live ++ G.pend, ∀ x, ¬ (c.Byte x ∧ l.Byte x)) ∧
    (G.live ++ G.pend).Pairwise PBlock.Disj := by
  obtain ⟨a, buf, Ω, A, Lb, I, _⟩ := h.inv (cl := False) hf False.elim
  exact I.structures

/-- The calls of the threads do what they have to (see `POk`), as long as the kernel gives memory. -/
theorem C46_calls_partial {C : Config} {X : EOp → Prop} {e : ES} {G : PSpec} {op : POp} (hf : C.reallocFactor ≠ 0)
    (h : EReach C X e G) (hv : EValid e G (.call op)) (hm : OpMem e.p op) :
    ∃ e' r, eexec C e (.call op) = .ok (e', r) ∧ POk e.p G op e'.p r := by
  obtain ⟨a, buf, Ω, A, Lb, I, _⟩ := h.inv (cl := False) hf False.elim
  rcases I.call hf hv False.elim with ⟨h1, _⟩ | ⟨e', r, ex, _, k⟩
  · exact absurd hm h1
  · exact ⟨e', r, ex, k⟩

/-- The creation of a thread changes no byte of a live block. -/
theorem C46_spawn_keeps {C : Config} {X : EOp → Prop} {e e' : ES} {G : PSpec} {h : Nat} (hf : C.reallocFactor ≠ 0)
    (hr : EReach C X e G) (hv : EValid e G (.spawn h)) (ex : eggSpawn C h e = .ok e') :
    ∀ l ∈ G.live, ∀ x, l.Byte x → e'.p.w.mem x = e.p.w.mem x := by
  obtain ⟨a, buf, Ω, A, Lb, I, _⟩ := hr.inv (cl := False) hf False.elim
  rcases I.spawn (C := C) hv.1 hv.2 with ⟨e1, _⟩ | ⟨e2, _, _, _, _, _, e1, _, _, _, k, _⟩
  · rw [ex] at e1; cases e1
  · rw [ex] at e1
    cases e1
    exact fun l hl x hx => k l hl trivial x hx

/-- **C46** (partial: the first 1224 threads, requests without boundary). The first call of a thread gets a chain, whatever
the other threads did before. -/
theorem C46_first_threads_partial {C : Config} {X : EOp → Prop} {e : ES} {G : PSpec} {h : Nat} (hf : C.reallocFactor ≠ 0)
    (hX : ∀ h, X (.spawn h) → h ≤ 1) (hr : EReach C X e G) (hn : e.p.chs.length < 1224) (hh : h ≤ 1) :
    ∃ e', eggSpawn C h e = .ok e' ∧ e'.p.chs.length = e.p.chs.length + 1 := by
  obtain ⟨a, buf, Ω, A, Lb, I, hl, hF⟩ := hr.inv (cl := False) hf False.elim
  obtain ⟨f, h1, h2, h3, h4, _⟩ := hF hX (by omega)
  have hb : GoodBound h := by unfold GoodBound; omega
  rcases I.spawn (C := C) hb (by unfold CHAIN_SIZE; omega) with ⟨_, hno⟩ | ⟨e', _, _, _, _, _, ex, _, _, _, _, hl'⟩
  · have := hno f h1 h2 h4
    rw [show alignedSize h CHAIN_SIZE = 1680 by unfold alignedSize CHAIN_SIZE; rw [if_neg (by omega)],
      calc_eq (by omega)] at this
    omega
  · exact ⟨e', ex, hl'⟩

/-- `n` new threads, one after the other. -/
def eggSpawns (C : Config) (h : Nat) : Nat → ES → Outcome ES
  | 0, e => .ok e
  | n + 1, e => do
    let e ← eggSpawn C h e
    eggSpawns C h n e

/-- **C46** is false without a bound on the number of threads: in every state of every process, however much memory the
kernel has left, the creation of 1249 more threads does not go through. The egg chain has no memory source (its slot is not
the one that was set), so that it has nothing but its buffer of 2 MB, and the code does not test the result. -/
theorem C46_refuted {C : Config} {X : EOp → Prop} {e : ES} {G : PSpec} {h : Nat} (hf : C.reallocFactor ≠ 0)
    (hr : EReach C X e G) (hb : GoodBound h) (hs : h + CHAIN_SIZE + 16 < W64) :
    e.p.chs.length ≤ 1248 ∧ eggSpawns C h 1249 e = .ub := by
  obtain ⟨a, buf, Ω, A, Lb, I, hl, _⟩ := hr.inv (cl := False) hf False.elim
  refine ⟨by have := I.count; omega, ?_⟩
  have key : ∀ (n : Nat) (e : ES) (Ω : Env) (A : AHeap) (Lb : List Block), EInv False e G a buf Ω A Lb →
      1249 ≤ Ω.ths.length + n → eggSpawns C h n e = .ub := by
    intro n
    induction n with
    | zero =>
      intro e Ω A Lb I hn
      have := I.count
      omega
    | succ n ih =>
      intro e Ω A Lb I hn
      rw [eggSpawns]
      rcases I.spawn (C := C) hb hs with ⟨e1, _⟩ | ⟨e', Ω', A', Lb', _, _, e1, I', _, hl', _⟩
      · rw [e1]; rfl
      · rw [e1, Outcome.ok_bind]
        exact ih e' Ω' A' Lb' I' (by omega)
  exact key 1249 e Ω A Lb I (by omega)

/-- The start: the kernel has everything but the first 8 MB; the structure of the egg chain is at 4 MB, its buffer at
6 MB. -/
theorem egg_start : EStart ⟨fun _ => 0, Regions.empty, Light.init ⟨fun _ => 16777216, 0, fun x => decide (x < 8388608)⟩⟩
    4194304 6291456 :=
  ⟨(fun _ _ => rfl), fun _ => rfl, ⟨_, rfl⟩, fun x h => decide_eq_true (by omega), fun x _ h => decide_eq_true (by omega),
    fun x _ h => decide_eq_true (by omega), by omega, by omega, by omega, by omega⟩

/-- A process with one thread. -/
theorem egg_thread : ∃ e, EReach Config.default (fun op => ∀ h, op = .spawn h → h ≤ 1) e ⟨[], []⟩ ∧ e.p.chs.length = 1 := by
  rcases eggInit_ok (C := Config.default) egg_start (h := 0) (by unfold GoodBound; omega) (by unfold LIGHT_SIZE; omega) with
    ⟨_, hb⟩ | ⟨e, Ω, A, Lb, e1, I, h1, h2, h3⟩
  · exact absurd hb (by decide)
  · have R : EReach Config.default (fun op => ∀ h, op = .spawn h → h ≤ 1) e ⟨[], []⟩ :=
      .init egg_start (by unfold GoodBound; omega) (by unfold LIGHT_SIZE; omega) (by rintro h ⟨⟩; omega) e1
    obtain ⟨e', e2, h4⟩ := C46_first_threads_partial (h := 0) (by decide) (fun h hx => hx h rfl) R (by rw [h2]; simp)
      (by omega)
    refine ⟨e', R.step (op := .spawn 0) (r := 0) ⟨by unfold GoodBound; omega, by unfold CHAIN_SIZE; omega⟩
      (by rintro h ⟨⟩; omega) ?_, by rw [h4, h2]; rfl⟩
    unfold eexec
    simp only
    rw [e2, Outcome.ok_bind, Outcome.pure_eq]

-- The hypotheses are met: a process whose only thread calls malloc, and the creation of a second thread.
example : ∃ e, EReach Config.default (fun op => ∀ h, op = .spawn h → h ≤ 1) e ⟨[], []⟩ ∧ EValid e ⟨[], []⟩ (.call (.malloc 0 0 100)) ∧
    EValid e ⟨[], []⟩ (.spawn 0) ∧ (∃ e', eggSpawn Config.default 0 e = .ok e') ∧ eggSpawns Config.default 0 1249 e = .ub := by
  obtain ⟨e, R, h1⟩ := egg_thread
  have hb : GoodBound 0 := by unfold GoodBound; omega
  refine ⟨e, R, ⟨by simp, by show 0 < _; omega, hb, by unfold PSize reqSize; simp⟩,
    ⟨hb, by unfold CHAIN_SIZE; omega⟩, ?_, (C46_refuted (by decide) R hb (by unfold CHAIN_SIZE; omega)).2⟩
  obtain ⟨e', h, _⟩ := C46_first_threads_partial (h := 0) (by decide) (fun h hx => hx h rfl) R (by omega) (by omega)
  exact ⟨e', h⟩

end MpcAlloc
