import Verif.ConcLemmas

/-
Invariant of the process with threads that run at the same time. A block given to a remote free queue is, for the memory,
still a block in use into which the queue writes, so the invariant of Posix.lean holds with it among the blocks; each queue
follows an execution of Queue.lean.
-/

namespace MpcAlloc

open Queue (CPC PPC upd upd_same upd_ne InFlight)

/-- Where the thread is in the queue of chain `i`, as a producer. -/
def projP (i : Nat) : MPc → PPC
  | .push j c _ => if j = i then c else .idle
  | _ => .idle

/-- Where the thread is in its own queue, as the consumer. -/
def projC : MPc → CPC
  | .purge _ c => c
  | _ => .idle

/-- The queue of chain `i` is in the state `q` of Queue.lean. -/
structure QRel (k : MS) (i : Nat) (q : Queue.S) : Prop where
  head : q.head = k.head i
  tail : q.tail = k.tail i
  next : q.next = k.nxt
  prod : q.prod = fun t => projP i (k.pc t)
  cons : q.cons = projC (k.pc i)
  fl : ∀ e, InFlight q e ↔ ∃ l ∈ k.G.queued, l.owner = i ∧ l.ptr = e

theorem QRel.put {k : MS} {i : Nat} {q : Queue.S} (h : Queue.Reach q) (h1 : q.head = k.head i) (h2 : q.tail = k.tail i)
    (h3 : q.prod = fun t => projP i (k.pc t)) (h4 : q.cons = projC (k.pc i))
    (h5 : ∀ e, InFlight q e ↔ ∃ l ∈ k.G.queued, l.owner = i ∧ l.ptr = e) (hn : ∀ e, InFlight q e → k.nxt e = q.next e) :
    ∃ q', Queue.Reach q' ∧ QRel k i q' :=
  ⟨_, Queue.Reach.write h hn, h1, h2, rfl, h3, h4, h5⟩

theorem proj_upd (i : Nat) (f : Nat → MPc) (t : Nat) (c : MPc) :
    (fun u => projP i (upd f t c u)) = upd (fun u => projP i (f u)) t (projP i c) := by
  funext u
  unfold upd
  split <;> rfl

theorem upd_self {α : Type} (f : Nat → α) (t : Nat) : upd f t (f t) = f := by
  funext u
  unfold upd
  split
  · rename_i h; rw [h]
  · rfl

theorem upd_upd {α : Type} (f : Nat → α) (t : Nat) (a b : α) : upd (upd f t a) t b = upd f t b := by
  funext u
  unfold upd
  split <;> rfl

/-- A block that a call of `t` has obtained. -/
def New (k : MS) (t r b n : Nat) : Prop :=
  r ≠ 0 ∧ (t, (⟨t, r, n, decide (b ≤ 1)⟩ : PBlock)) ∈ k.G.hand ∧ (1 < b → b ∣ r) ∧ (b ≤ 1 → 16 ∣ r)

/-- Whether threads may end, and those that have begun to end. -/
structure EndSet where
  may : Prop
  has : Nat → Prop
  ok : ∀ o, has o → may

/-- No thread ends. -/
def EndSet.none : EndSet := ⟨False, fun _ => False, fun _ h => h⟩

/-- Threads to which a block that `t` has resized belongs: `t`, and those that have begun to end. -/
def By (E : EndSet) (t o : Nat) : Prop := o = t ∨ E.has o

/-- The call of `t` may return `r`. -/
def RetOK (E : EndSet) (k : MS) (t r : Nat) : Prop :=
  ∃ c, k.call t = some c ∧
    match c.op with
    | .malloc b n => New k t r b n
    | .calloc b n j => New k t r b (n * j) ∧ ∀ i, i < n * j → k.w.mem (r + i) = 0
    | .free _ => r = 0
    | .realloc p b n =>
      (p = 0 ∧ New k t r b n) ∨ (p ≠ 0 ∧ n = 0 ∧ r = 0) ∨
      (p ≠ 0 ∧ n ≠ 0 ∧ r ≠ 0 ∧ ∃ l, (t, l) ∈ k.G.hand ∧ l.ptr = r ∧ l.len = n ∧ By E t l.owner ∧
        (r ≠ p → (1 < b → b ∣ r) ∧ (b ≤ 1 → 16 ∣ r)) ∧
        ∀ l0 ∈ c.live, l0.ptr = p → ∀ i, i < min l0.len n → k.w.mem (r + i) = c.mem (p + i))

/-- The block `l` at `p` that the call `c` of `t` resizes. -/
def Old (k : MS) (c : MRec) (t p : Nat) (l : PBlock) : Prop :=
  (t, l) ∈ k.G.hand ∧ l.ptr = p ∧ (∀ l0 ∈ c.live, l0.ptr = p → l0 = l) ∧ ∀ x, l.Byte x → k.w.mem x = c.mem x

/-- The request is a correct one. -/
def GoodReq (cl : Prop) (b n : Nat) : Prop := GoodBound b ∧ PSize (reqSize b n) ∧ (cl → CleanSize (reqSize b n))

/-- The call of `t` is going to allocate. -/
def AllocOK (cl : Prop) (k : MS) (t b n : Nat) (a : After) : Prop :=
  GoodReq cl b n ∧ ∃ c, k.call t = some c ∧
    match a with
    | .ret => c.op = .malloc b n ∨ c.op = .realloc 0 b n
    | .zero => ∃ x y, c.op = .calloc b x y ∧ n = x * y
    | .move p => c.op = .realloc p b n ∧ p ≠ 0 ∧ n ≠ 0 ∧ ∃ l, Old k c t p l

/-- The call of `t` is going to free `p` and return `r`. -/
def FreeOK (E : EndSet) (k : MS) (t p r : Nat) : Prop :=
  RetOK E k t r ∧ (p = 0 ∨ (p ≠ r ∧ ∃ l, (t, l) ∈ k.G.hand ∧ l.ptr = p))

/-- The call of `t` is going to resize `p`. -/
def ReallocOK (cl : Prop) (E : EndSet) (k : MS) (t p b n : Nat) (l : PBlock) : Prop :=
  GoodReq cl b n ∧ p ≠ 0 ∧ n ≠ 0 ∧ ((l.owner ≠ t ∧ ¬ E.may) ∨ l.plain = true ∨ n ≤ l.len) ∧
    ∃ c, k.call t = some c ∧ c.op = .realloc p b n ∧ Old k c t p l

/-- What is known of the thread. -/
def MPcOK (cl : Prop) (E : EndSet) (k : MS) (t : Nat) : MPc → Prop
  | .idle => True
  | .purge (.alloc b n a) _ => AllocOK cl k t b n a
  | .purge (.free p r) _ => FreeOK E k t p r
  | .alloc b n a => AllocOK cl k t b n a
  | .zero r n => ∃ c b x y, k.call t = some c ∧ c.op = .calloc b x y ∧ n = x * y ∧ New k t r b n
  | .copy r p n => ∃ c b l, k.call t = some c ∧ c.op = .realloc p b n ∧ p ≠ 0 ∧ n ≠ 0 ∧ p ≠ r ∧ New k t r b n ∧
      Old k c t p l
  | .look p r => FreeOK E k t p r
  | .lfree i p r => By E t i ∧ RetOK E k t r ∧ p ≠ r ∧ ∃ l, (t, l) ∈ k.G.hand ∧ l.ptr = p ∧ l.owner = i
  | .push _ _ r => RetOK E k t r
  | .rlook p b n => ∃ l, ReallocOK cl E k t p b n l
  | .rlocal i p b n => By E t i ∧ ∃ l, ReallocOK cl E k t p b n l ∧ l.owner = i

/-- Pointers that the thread has in hand. -/
def MPc.refs : MPc → List Nat
  | .idle => []
  | .purge (.alloc _ _ (.move p)) _ => [p]
  | .purge (.alloc _ _ _) _ => []
  | .purge (.free p r) _ => [p, r]
  | .alloc _ _ (.move p) => [p]
  | .alloc _ _ _ => []
  | .zero r _ => [r]
  | .copy r p _ => [r, p]
  | .look p r => [p, r]
  | .lfree _ p r => [p, r]
  | .push _ _ r => [r]
  | .rlook p _ _ => [p]
  | .rlocal _ p _ _ => [p]

/-- What is known of a thread only depends on its call and on the blocks it has in hand. -/
structure Same (k k' : MS) (t : Nat) : Prop where
  call : k'.call t = k.call t
  hand : ∀ l, (t, l) ∈ k.G.hand → (t, l) ∈ k'.G.hand
  mem : ∀ l, (t, l) ∈ k.G.hand → ∀ x, l.Byte x → k'.w.mem x = k.w.mem x

theorem New.congr {k k' : MS} {t r b n : Nat} (h : New k t r b n) (s : Same k k' t) : New k' t r b n :=
  ⟨h.1, s.hand _ h.2.1, h.2.2⟩

theorem Old.congr {k k' : MS} {c : MRec} {t p : Nat} {l : PBlock} (h : Old k c t p l) (s : Same k k' t) : Old k' c t p l :=
  ⟨s.hand _ h.1, h.2.1, h.2.2.1, fun x hx => by rw [s.mem l h.1 x hx]; exact h.2.2.2 x hx⟩

theorem RetOK.congr {E : EndSet} {k k' : MS} {t r : Nat} (h : RetOK E k t r) (s : Same k k' t) : RetOK E k' t r := by
  obtain ⟨c, h1, h2⟩ := h
  refine ⟨c, by rw [s.call]; exact h1, ?_⟩
  split at h2
  · exact h2.congr s
  · refine ⟨h2.1.congr s, fun i hi => ?_⟩
    rw [s.mem _ h2.1.2.1 _ ⟨by simp only; omega, by simp only; omega⟩]
    exact h2.2 i hi
  · exact h2
  · rcases h2 with ⟨h3, h4⟩ | h3 | ⟨h3, h4, h5, l, l1, l2, l3, l4, l5, l6⟩
    · exact Or.inl ⟨h3, h4.congr s⟩
    · exact Or.inr (Or.inl h3)
    · refine Or.inr (Or.inr ⟨h3, h4, h5, l, s.hand l l1, l2, l3, l4, l5, fun l0 a b i hi => ?_⟩)
      rw [s.mem l l1 _ ⟨by omega, by omega⟩]
      exact l6 l0 a b i hi

theorem AllocOK.congr {cl : Prop} {k k' : MS} {t b n : Nat} {a : After} (h : AllocOK cl k t b n a) (s : Same k k' t) :
    AllocOK cl k' t b n a := by
  obtain ⟨h1, c, h2, h3⟩ := h
  refine ⟨h1, c, by rw [s.call]; exact h2, ?_⟩
  split at h3
  · exact h3
  · exact h3
  · obtain ⟨h4, h5, h6, l, h7⟩ := h3
    exact ⟨h4, h5, h6, l, h7.congr s⟩

theorem FreeOK.congr {E : EndSet} {k k' : MS} {t p r : Nat} (h : FreeOK E k t p r) (s : Same k k' t) : FreeOK E k' t p r := by
  refine ⟨h.1.congr s, h.2.imp id ?_⟩
  rintro ⟨h1, l, h2, h3⟩
  exact ⟨h1, l, s.hand l h2, h3⟩

theorem ReallocOK.congr {cl : Prop} {E : EndSet} {k k' : MS} {t p b n : Nat} {l : PBlock} (h : ReallocOK cl E k t p b n l) (s : Same k k' t) :
    ReallocOK cl E k' t p b n l := by
  obtain ⟨h1, h2, h3, h4, c, h5, h6, h7⟩ := h
  exact ⟨h1, h2, h3, h4, c, by rw [s.call]; exact h5, h6, h7.congr s⟩

theorem MPcOK.congr {cl : Prop} {E : EndSet} {k k' : MS} {t : Nat} {c : MPc} (h : MPcOK cl E k t c) (s : Same k k' t) : MPcOK cl E k' t c := by
  unfold MPcOK at h ⊢
  split at h
  · trivial
  · exact AllocOK.congr h s
  · exact FreeOK.congr h s
  · exact AllocOK.congr h s
  · obtain ⟨c, b, x, y, h1, h2, h3, h4⟩ := h
    exact ⟨c, b, x, y, by rw [s.call]; exact h1, h2, h3, h4.congr s⟩
  · obtain ⟨c, b, l, h1, h2, h3, h4, h5, h6, h7⟩ := h
    exact ⟨c, b, l, by rw [s.call]; exact h1, h2, h3, h4, h5, h6.congr s, h7.congr s⟩
  · exact FreeOK.congr h s
  · obtain ⟨h1, h2, h3, l, h4, h5⟩ := h
    exact ⟨h1, h2.congr s, h3, l, s.hand l h4, h5⟩
  · exact RetOK.congr h s
  · obtain ⟨l, h⟩ := h
    exact ⟨l, h.congr s⟩
  · obtain ⟨h0, l, h, h1⟩ := h
    exact ⟨h0, l, h.congr s, h1⟩

/-- State of the process. -/
structure MInv (Ω : Env) (cl : Prop) (E : EndSet) (k : MS) : Prop where
  inv : PInv Ω cl k.ps ⟨k.G.all, []⟩
  q : ∀ i, ∃ q, Queue.Reach q ∧ QRel k i q
  wide : ∀ l ∈ k.G.queued, 16 ≤ l.len
  ptr : ∀ l ∈ k.G.queued, (∀ t, projP l.owner (k.pc t) ≠ .clear l.ptr) → readLE k.w.mem (l.ptr + 8) 8 = l.ptr
  th : ∀ t, MPcOK cl E k t (k.pc t)
  out : ∀ t, k.chs.length ≤ t → k.pc t = .idle
  hand : ∀ x ∈ k.G.hand, x.2.ptr ∈ (k.pc x.1).refs

/-! ## The blocks are distinct -/

/-- No two blocks have the same pointer. -/
structure Nd (G : MSpec) : Prop where
  all : G.all.Pairwise (fun l l' => l.ptr ≠ l'.ptr)
  hand : ∀ x ∈ G.hand, ∀ y ∈ G.hand, x.2.ptr = y.2.ptr → x = y
  queued : ∀ x ∈ G.queued, ∀ y ∈ G.queued, x.ptr = y.ptr → x = y
  hq : ∀ x ∈ G.hand, ∀ l ∈ G.queued, x.2.ptr ≠ l.ptr
  lh : ∀ l ∈ G.live, ∀ x ∈ G.hand, l.ptr ≠ x.2.ptr
  lq : ∀ l ∈ G.live, ∀ x ∈ G.queued, l.ptr ≠ x.ptr

theorem MSpec.nd {G : MSpec} (h : G.all.Pairwise (fun l l' => l.ptr ≠ l'.ptr)) : Nd G := by
  have h0 := h
  unfold MSpec.all at h0
  obtain ⟨h1, h2, h3⟩ := List.pairwise_append.1 h0
  obtain ⟨h4, h5, h6⟩ := List.pairwise_append.1 h2
  rw [List.pairwise_map] at h4
  refine ⟨h, fun x hx y hy e => ?_, fun x hx y hy e => ptr_eq_of_nodup h5 hx hy e,
    fun x hx l hl => h6 _ (List.mem_map_of_mem hx) l hl,
    fun l hl x hx => h3 l hl _ (List.mem_append_left _ (List.mem_map_of_mem hx)),
    fun l hl x hx => h3 l hl x (List.mem_append_right _ hx)⟩
  by_contra hne
  have : ∀ {L : List (Nat × PBlock)}, L.Pairwise (fun a b => a.2.ptr ≠ b.2.ptr) → x ∈ L → y ∈ L → False := by
    intro L
    induction L with
    | nil => intro _ h; cases h
    | cons a L ih =>
      intro hp hx hy
      obtain ⟨p1, p2⟩ := List.pairwise_cons.1 hp
      rcases List.mem_cons.1 hx with ex | hx' <;> rcases List.mem_cons.1 hy with ey | hy'
      · exact hne (ex.trans ey.symm)
      · exact p1 y hy' (by rw [← ex]; exact e)
      · exact p1 x hx' (by rw [← ey]; exact e.symm)
      · exact ih p2 hx' hy'
  exact this h4 hx hy

theorem PInv.nd {Ω : Env} {cl : Prop} {s : PS} {G : MSpec} (I : PInv Ω cl s ⟨G.all, []⟩) : Nd G := by
  obtain ⟨_, _, _, _, K⟩ := I
  have := K.nodup
  simp only [List.append_nil] at this
  exact MSpec.nd this

theorem MSpec.hand_all {G : MSpec} {x : Nat × PBlock} (h : x ∈ G.hand) : x.2 ∈ G.all :=
  List.mem_append_right _ (List.mem_append_left _ (List.mem_map_of_mem h))

theorem MSpec.queued_all {G : MSpec} {l : PBlock} (h : l ∈ G.queued) : l ∈ G.all :=
  List.mem_append_right _ (List.mem_append_right _ h)

theorem MSpec.live_all {G : MSpec} {l : PBlock} (h : l ∈ G.live) : l ∈ G.all := List.mem_append_left _ h

theorem Nd.find {G : MSpec} (n : Nd G) {l : PBlock} (h : l ∈ G.all) (m : PBlock) : m ∈ G.find l.ptr ↔ m = l := by
  unfold MSpec.find
  rw [List.mem_filter, decide_eq_true_eq]
  constructor
  · rintro ⟨h1, h2⟩; exact ptr_eq_of_nodup n.all h1 h h2
  · rintro rfl; exact ⟨h, rfl⟩

/-! ## Steps -/

/-- The bytes of the blocks that step or other of thread `t` does not touch: those in the queues and in the hands of the
others. -/
def MFrame (k k' : MS) (t : Nat) : Prop :=
  ∀ l, (l ∈ k.G.queued ∨ ∃ u, u ≠ t ∧ (u, l) ∈ k.G.hand) → ∀ x, l.Byte x → k'.w.mem x = k.w.mem x

/-- A step of thread `t` that only has to do with the queue of chain `i0`. -/
theorem MInv.next {Ω Ω' : Env} {cl : Prop} {E : EndSet} {k k' : MS} (I : MInv Ω cl E k) {t : Nat} {c : MPc} (i0 : Nat)
    (hpc : k'.pc = upd k.pc t c) (hcall : ∀ u, u ≠ t → k'.call u = k.call u) (hlen : k.chs.length ≤ k'.chs.length)
    (ht : t < k'.chs.length ∨ c = .idle)
    (inv : PInv Ω' cl k'.ps ⟨k'.G.all, []⟩)
    (hhead : ∀ i, i ≠ i0 → k'.head i = k.head i) (htail : ∀ i, i ≠ i0 → k'.tail i = k.tail i)
    (hp : ∀ i, i ≠ i0 → projP i c = projP i (k.pc t)) (hc : t ≠ i0 → projC c = projC (k.pc t))
    (hq : ∀ l, l.owner ≠ i0 → (l ∈ k'.G.queued ↔ l ∈ k.G.queued))
    (hh : ∀ u l, u ≠ t → ((u, l) ∈ k'.G.hand ↔ (u, l) ∈ k.G.hand))
    (hm : ∀ u l, u ≠ t → (u, l) ∈ k.G.hand → ∀ x, l.Byte x → k'.w.mem x = k.w.mem x)
    (hm' : ∀ l ∈ k.G.queued, l.owner ≠ i0 → ∀ x, l.Byte x → k'.w.mem x = k.w.mem x)
    (ok : MPcOK cl E k' t c) (hd : ∀ l, (t, l) ∈ k'.G.hand → l.ptr ∈ c.refs)
    (q0 : ∃ q, Queue.Reach q ∧ QRel k' i0 q)
    (wide0 : ∀ l ∈ k'.G.queued, l.owner = i0 → 16 ≤ l.len)
    (ptr0 : ∀ l ∈ k'.G.queued, l.owner = i0 → (∀ u, projP i0 (k'.pc u) ≠ .clear l.ptr) →
      readLE k'.w.mem (l.ptr + 8) 8 = l.ptr) : MInv Ω' cl E k' := by
  have hw : ∀ l ∈ k'.G.queued, l.owner ≠ i0 → 16 ≤ l.len := fun l hl h => I.wide l ((hq l h).1 hl)
  refine ⟨inv, fun i => ?_, fun l hl => ?_, fun l hl hcl => ?_, fun u => ?_, fun u hu => ?_, fun x hx => ?_⟩
  · by_cases hi : i = i0
    · rw [hi]; exact q0
    · obtain ⟨q, R, h⟩ := I.q i
      refine QRel.put R (by rw [h.head, hhead i hi]) (by rw [h.tail, htail i hi]) ?_ ?_ ?_ ?_
      · rw [h.prod, hpc, proj_upd, hp i hi]
        exact (upd_self (fun u => projP i (k.pc u)) t).symm
      · rw [h.cons, hpc]
        by_cases hit : i = t
        · subst hit; rw [upd_same, hc hi]
        · rw [upd_ne hit]
      · intro e
        rw [h.fl]
        constructor
        · rintro ⟨l, h1, h2, h3⟩; exact ⟨l, (hq l (by rw [h2]; exact hi)).2 h1, h2, h3⟩
        · rintro ⟨l, h1, h2, h3⟩; exact ⟨l, (hq l (by rw [h2]; exact hi)).1 h1, h2, h3⟩
      · intro e he
        rw [h.next]
        obtain ⟨l, h1, h2, rfl⟩ := (h.fl e).1 he
        have := I.wide l h1
        exact readLE_congr (fun x a b => hm' l h1 (by rw [h2]; exact hi) x ⟨a, by omega⟩)
  · by_cases hi : l.owner = i0
    · exact wide0 l hl hi
    · exact hw l hl hi
  · by_cases hi : l.owner = i0
    · exact ptr0 l hl hi (fun u => by rw [← hi]; exact hcl u)
    · have h1 := (hq l hi).1 hl
      have h2 := I.wide l h1
      rw [readLE_congr (m := k.w.mem) (fun x a b => hm' l h1 hi x ⟨by omega, by omega⟩)]
      refine I.ptr l h1 (fun u => ?_)
      have := hcl u
      rw [hpc] at this
      by_cases hu : u = t
      · subst hu; rw [upd_same, hp _ hi] at this; exact this
      · rw [upd_ne hu] at this; exact this
  · rw [hpc]
    by_cases hu : u = t
    · subst hu; rw [upd_same]; exact ok
    · rw [upd_ne hu]
      exact (I.th u).congr ⟨hcall u hu, fun l hl => (hh u l hu).2 hl, fun l hl x hx => hm u l hu hl x hx⟩
  · rw [hpc]
    by_cases hut : u = t
    · subst hut
      rw [upd_same]
      rcases ht with ht | ht
      · omega
      · exact ht
    · rw [upd_ne hut]; exact I.out u (by omega)
  · obtain ⟨u, l⟩ := x
    rw [hpc]
    by_cases hut : u = t
    · subst hut; rw [upd_same]; exact hd l hx
    · simp only [upd_ne hut]; exact I.hand _ ((hh u l hut).1 hx)

/-- A step of thread `t` that has nothing to do with the queues. -/
theorem MInv.local {Ω Ω' : Env} {cl : Prop} {E : EndSet} {k k' : MS} (I : MInv Ω cl E k) {t : Nat} {c : MPc}
    (hpc : k'.pc = upd k.pc t c) (hcall : ∀ u, u ≠ t → k'.call u = k.call u) (hlen : k.chs.length ≤ k'.chs.length)
    (ht : t < k'.chs.length ∨ c = .idle)
    (inv : PInv Ω' cl k'.ps ⟨k'.G.all, []⟩) (hhead : k'.head = k.head) (htail : k'.tail = k.tail)
    (hp : ∀ i, projP i c = projP i (k.pc t)) (hc : projC c = projC (k.pc t))
    (hq : ∀ l, l ∈ k'.G.queued ↔ l ∈ k.G.queued)
    (hh : ∀ u l, u ≠ t → ((u, l) ∈ k'.G.hand ↔ (u, l) ∈ k.G.hand)) (hf : MFrame k k' t)
    (ok : MPcOK cl E k' t c) (hd : ∀ l, (t, l) ∈ k'.G.hand → l.ptr ∈ c.refs) : MInv Ω' cl E k' := by
  -- a queue that is not concerned
  refine I.next t hpc hcall hlen ht inv (fun i _ => by rw [hhead]) (fun i _ => by rw [htail]) (fun i _ => hp i)
    (fun _ => hc) (fun l _ => hq l) hh (fun u l hu hl => hf l (Or.inr ⟨u, hu, hl⟩)) (fun l hl _ => hf l (Or.inl hl)) ok hd
    ?_ (fun l hl _ => I.wide l ((hq l).1 hl)) ?_
  · obtain ⟨q, R, h⟩ := I.q t
    refine QRel.put R (by rw [h.head, hhead]) (by rw [h.tail, htail]) ?_ ?_ ?_ ?_
    · rw [h.prod, hpc, proj_upd, hp t]
      exact (upd_self (fun u => projP t (k.pc u)) t).symm
    · rw [h.cons, hpc, upd_same, hc]
    · intro e
      rw [h.fl]
      constructor
      · rintro ⟨l, h1, h2⟩; exact ⟨l, (hq l).2 h1, h2⟩
      · rintro ⟨l, h1, h2⟩; exact ⟨l, (hq l).1 h1, h2⟩
    · intro e he
      rw [h.next]
      obtain ⟨l, h1, h2, rfl⟩ := (h.fl e).1 he
      have := I.wide l h1
      exact readLE_congr (fun x a b => hf l (Or.inl h1) x ⟨a, by omega⟩)
  · intro l hl hi hcl
    have h1 := (hq l).1 hl
    have h2 := I.wide l h1
    rw [readLE_congr (m := k.w.mem) (fun x a b => hf l (Or.inl h1) x ⟨by omega, by omega⟩)]
    refine I.ptr l h1 (fun u => ?_)
    rw [hi]
    have := hcl u
    rw [hpc] at this
    by_cases hu : u = t
    · subst hu; rw [upd_same, hp] at this; exact this
    · rw [upd_ne hu] at this; exact this

end MpcAlloc
