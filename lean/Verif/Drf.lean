import Verif.Basic

/-
Threads that use their own blocks, data protected by spinlocks (/repo/src/sctk_alloc_internal_spinlock.h) and blocks that
other threads have handed over to them through memory, on a machine whose threads have store buffers (x86-TSO, as in
SpinTso.lean and QueueTso.lean). Here the accesses between lock and unlock are steps of their own, there are any number
of locks, and the data move between the locks and the threads: an allocation takes a block out of the data of the lock
of its chain, a free puts it back, a program gives a block to another thread. With `fifo` the stores of a thread reach
the memory in the order in which they were executed; without it in any order.
-/

namespace MpcAlloc
namespace Drf

/-- Who may access an address (not in the code): a thread, whoever holds a lock, or whoever receives a message. -/
inductive Own
  | thread (t : Nat)
  | lock (l : Nat)
  | msg (i : Nat)
deriving DecidableEq

/-- A delayed store: into data, of 0 into a lock word (`sctk_alloc_internal_spinlock_unlock`, 64-67), or of a pointer that
tells another thread that it may use some data: message number `i` into the cell `c`. -/
inductive W
  | data (a v : Nat)
  | unlock (l : Nat)
  | send (c i : Nat)
deriving DecidableEq

/-- The lock words, the data, the cells for messages in memory, the store buffers (oldest store first), and, not in the
code: who holds which lock, who may access what, the values last stored in the order of execution, the number of the next
message. -/
structure T where
  word : Nat → Nat
  mem : Nat → Nat
  box : Nat → Nat
  buf : Nat → List W
  holds : Nat → Nat → Prop
  own : Nat → Own
  last : Nat → Nat
  nxt : Nat

def upd {α : Type} (f : Nat → α) (a : Nat) (v : α) : Nat → α := fun x => if x = a then v else f x

theorem upd_same {α : Type} (f : Nat → α) (a : Nat) (v : α) : upd f a v a = v := if_pos rfl
theorem upd_ne {α : Type} {f : Nat → α} {a x : Nat} {v : α} (h : x ≠ a) : upd f a v x = f x := if_neg h

/-- Free locks, empty buffers, any data that belong to threads and locks in any way. -/
def init (m : Nat → Nat) (o : Nat → Own) : T :=
  ⟨fun _ => 0, m, fun _ => 0, fun _ => [], fun _ _ => False, o, m, 1⟩

/-- A store reaches the memory. -/
def W.apply (τ : T) : W → T
  | .data a v => { τ with mem := upd τ.mem a v }
  | .unlock l => { τ with word := upd τ.word l 0 }
  | .send c i => { τ with box := upd τ.box c i }

/-- The data as a thread with buffer `b` reads it: its own latest store, else the memory. -/
def view (b : List W) (m : Nat → Nat) : Nat → Nat :=
  b.foldl (fun m w => match w with
    | .data a v => upd m a v
    | _ => m) m

/-- A cell for messages as a thread with buffer `b` reads it. -/
def readBox (b : List W) (m : Nat → Nat) : Nat → Nat :=
  b.foldl (fun m w => match w with
    | .send c i => upd m c i
    | _ => m) m

/-- The thread may access the address: it is its own, or belongs to a lock that it holds. -/
def May (τ : T) (t a : Nat) : Prop := τ.own a = .thread t ∨ ∃ l, τ.holds t l ∧ τ.own a = .lock l

/-- An access of a thread to data: the value loaded or stored. -/
inductive Ev
  | load (t a v : Nat)
  | store (t a v : Nat)
deriving DecidableEq

/-- The steps, and the access that they make.
* `swap`: one turn of the loop of `sctk_alloc_internal_spinlock_lock` or a `trylock` (54-61, 70-73) finds the lock word
  0; a turn that finds 1 changes nothing and is left out.
* `load`, `store`: accesses of a thread to data that it may access.
* `take`, `put`: the holder of a lock keeps data for itself (allocation), or gives data of its own to the lock (free).
* `unlock`: 64-67.
* `send`: a thread stores a pointer into the cell `c` to give the data `A` away; `recv`: a thread loads the cell and
  finds the message; the data belong to the first one that does so.
* `flush`: a store reaches the memory. -/
inductive Step (fifo : Bool) (τ : T) : Option Ev → T → Prop
  | swap {t l : Nat} : τ.word l = 0 →
      Step fifo τ none { τ with word := upd τ.word l 1, holds := upd τ.holds t (fun k => k = l ∨ τ.holds t k) }
  | load {t a : Nat} : May τ t a → Step fifo τ (some (.load t a (view (τ.buf t) τ.mem a))) τ
  | store {t a : Nat} (v : Nat) : May τ t a →
      Step fifo τ (some (.store t a v))
        { τ with buf := upd τ.buf t (τ.buf t ++ [.data a v]), last := upd τ.last a v }
  | take {t l a : Nat} : τ.holds t l → τ.own a = .lock l → Step fifo τ none { τ with own := upd τ.own a (.thread t) }
  | put {t l a : Nat} : τ.holds t l → τ.own a = .thread t → Step fifo τ none { τ with own := upd τ.own a (.lock l) }
  | unlock {t l : Nat} : τ.holds t l →
      Step fifo τ none { τ with holds := upd τ.holds t (fun k => k ≠ l ∧ τ.holds t k),
                                buf := upd τ.buf t (τ.buf t ++ [.unlock l]) }
  | send {t c : Nat} (A : Nat → Bool) : (∀ a, A a = true → τ.own a = .thread t) →
      Step fifo τ none { τ with own := fun a => if A a = true then .msg τ.nxt else τ.own a,
                                buf := upd τ.buf t (τ.buf t ++ [.send c τ.nxt]), nxt := τ.nxt + 1 }
  | recv {t c : Nat} : readBox (τ.buf t) τ.box c ≠ 0 →
      Step fifo τ none { τ with own := fun a => if τ.own a = .msg (readBox (τ.buf t) τ.box c) then .thread t else τ.own a }
  | flush {t : Nat} {l1 l2 : List W} {w : W} : τ.buf t = l1 ++ w :: l2 → (fifo = true → l1 = []) →
      Step fifo τ none (w.apply { τ with buf := upd τ.buf t (l1 ++ l2) })

/-- The executions from data `m` that belong to threads and locks, with their accesses, the first one first. -/
inductive Run (fifo : Bool) (m : Nat → Nat) : List Ev → T → Prop
  | init (o : Nat → Own) : (∀ a i, o a ≠ .msg i) → Run fifo m [] (init m o)
  | step {es : List Ev} {e : Option Ev} {τ τ' : T} : Run fifo m es τ → Step fifo τ e τ' → Run fifo m (es ++ e.toList) τ'

/-! ## Invariant -/

/-- The buffer has a store into `a`. -/
def Pend (b : List W) (a : Nat) : Prop := ∃ v, W.data a v ∈ b

/-- Only `t` has delayed stores into `a`, and reads the last value. -/
def Only (τ : T) (a t : Nat) : Prop := (∀ u, u ≠ t → ¬ Pend (τ.buf u) a) ∧ view (τ.buf t) τ.mem a = τ.last a

/-- No store into `a` is delayed, and the memory has the last value. -/
def Arrived (τ : T) (a : Nat) : Prop := (∀ u, ¬ Pend (τ.buf u) a) ∧ τ.mem a = τ.last a

/-- The delayed stores of `t` into `a` are before `w`. -/
def Behind (τ : T) (a t : Nat) (w : W) : Prop := ∃ x y, τ.buf t = x ++ w :: y ∧ ¬ Pend y a

/-- A store that is not into data. -/
def W.Token : W → Prop
  | .data _ _ => False
  | _ => True

/-- Two delayed stores of the same unlock or message. -/
def W.Same (w w' : W) : Prop := (∃ l, w = .unlock l ∧ w' = .unlock l) ∨ ∃ c d i, w = .send c i ∧ w' = .send d i

theorem W.Same.symm {w w' : W} (h : w.Same w') : w'.Same w := by
  rcases h with ⟨l, h, h'⟩ | ⟨c, d, i, h, h'⟩
  · exact Or.inl ⟨l, h', h⟩
  · exact Or.inr ⟨d, c, i, h', h⟩

/-- Unlocks and messages are delayed once. -/
def Uniq (buf : Nat → List W) : Prop := ∀ t u x y x' y' (w w' : W), buf t = x ++ w :: y → buf u = x' ++ w' :: y' →
  w.Same w' → t = u ∧ x = x' ∧ y = y'

structure Inv (τ : T) : Prop where
  /-- A free lock has no holder and no delayed unlock. -/
  free : ∀ l, τ.word l = 0 → ∀ t, ¬ τ.holds t l ∧ W.unlock l ∉ τ.buf t
  /-- A lock has one holder, and then no delayed unlock. -/
  one : ∀ t l, τ.holds t l → (∀ u, u ≠ t → ¬ τ.holds u l) ∧ ∀ u, W.unlock l ∉ τ.buf u
  /-- A message that arrived or was never sent is not delayed. -/
  box : ∀ c, τ.box c < τ.nxt ∧ ∀ t d, W.send d (τ.box c) ∉ τ.buf t
  pos : 0 < τ.nxt
  sent : ∀ t c i, W.send c i ∈ τ.buf t → 0 < i ∧ i < τ.nxt
  /-- Unlocks and messages are delayed once. -/
  uniq : Uniq τ.buf
  thread : ∀ a t, τ.own a = .thread t → Only τ a t
  lock : ∀ a l, τ.own a = .lock l → (∀ t, τ.holds t l → Only τ a t) ∧
    (∀ t, W.unlock l ∈ τ.buf t → Only τ a t ∧ Behind τ a t (.unlock l)) ∧ (τ.word l = 0 → Arrived τ a)
  msg : ∀ a i, τ.own a = .msg i → 0 < i ∧ i < τ.nxt ∧
    ((∃ t c, W.send c i ∈ τ.buf t ∧ Only τ a t ∧ Behind τ a t (.send c i)) ∨
      ((∀ t c, W.send c i ∉ τ.buf t) ∧ Arrived τ a))

theorem view_snoc (b : List W) (m : Nat → Nat) (a v : Nat) : view (b ++ [W.data a v]) m = upd (view b m) a v := by
  simp [view]

theorem view_token {w : W} (h : w.Token) (b : List W) (m : Nat → Nat) : view (b ++ [w]) m = view b m := by
  cases w <;> simp [view] <;> exact h.elim

theorem view_notPend {b : List W} {a : Nat} (h : ¬ Pend b a) (m : Nat → Nat) : view b m a = m a := by
  induction b generalizing m with
  | nil => rfl
  | cons w b ih =>
    have h' : ¬ Pend b a := fun ⟨v, hv⟩ => h ⟨v, List.mem_cons_of_mem _ hv⟩
    cases w with
    | data x v =>
      have hx : a ≠ x := by rintro rfl; exact h ⟨v, List.mem_cons_self⟩
      show view b (upd m x v) a = m a
      rw [ih h', upd_ne hx]
    | unlock l => exact ih h' m
    | send c i => exact ih h' m

theorem view_mem {b : List W} {a : Nat} {m m' : Nat → Nat} (h : m a = m' a) : view b m a = view b m' a := by
  induction b generalizing m m' with
  | nil => exact h
  | cons w b ih =>
    cases w with
    | data x v =>
      refine ih (m := upd m x v) (m' := upd m' x v) ?_
      unfold upd; split
      · rfl
      · exact h
    | unlock l => exact ih h
    | send c i => exact ih h

theorem Arrived.only {τ : T} {a : Nat} (h : Arrived τ a) (t : Nat) : Only τ a t :=
  ⟨fun u _ => h.1 u, by rw [view_notPend (h.1 t)]; exact h.2⟩

theorem Only.arrived {τ : T} {a t : Nat} (h : Only τ a t) (hp : ¬ Pend (τ.buf t) a) : Arrived τ a :=
  ⟨fun u => if e : u = t then e ▸ hp else h.1 u e, by rw [← h.2, view_notPend hp]⟩

theorem pend_snoc {b : List W} {w : W} {a : Nat} : Pend (b ++ [w]) a ↔ Pend b a ∨ ∃ v, w = .data a v := by
  constructor
  · rintro ⟨v, hv⟩
    rcases List.mem_append.1 hv with h | h
    · exact Or.inl ⟨v, h⟩
    · exact Or.inr ⟨v, (List.mem_singleton.1 h).symm⟩
  · rintro (⟨v, h⟩ | ⟨v, h⟩)
    · exact ⟨v, List.mem_append_left _ h⟩
    · exact ⟨v, List.mem_append_right _ (List.mem_singleton.2 h.symm)⟩

theorem snoc_split {b x y : List W} {w0 w : W} (h : b ++ [w0] = x ++ w :: y) :
    (y = [] ∧ w = w0 ∧ x = b) ∨ ∃ y', y = y' ++ [w0] ∧ b = x ++ w :: y' := by
  rcases List.eq_nil_or_concat y with rfl | ⟨y', z, rfl⟩
  · obtain ⟨h1, h2⟩ := List.append_inj' h rfl
    cases h2
    exact Or.inl ⟨rfl, rfl, h1.symm⟩
  · rw [List.concat_eq_append, ← List.cons_append, ← List.append_assoc] at h
    obtain ⟨h1, h2⟩ := List.append_inj' h rfl
    cases h2
    exact Or.inr ⟨y', by simp, h1⟩

section push
variable {τ τ' : T} {t : Nat} {w : W}

theorem push_mem (hb : τ'.buf = upd τ.buf t (τ.buf t ++ [w])) {u : Nat} {z : W} :
    z ∈ τ'.buf u ↔ z ∈ τ.buf u ∨ (u = t ∧ z = w) := by
  rw [hb]; unfold upd; split
  · subst_vars; simp
  · rename_i h; simp [h]

theorem push_pend (hb : τ'.buf = upd τ.buf t (τ.buf t ++ [w])) {u a : Nat} :
    Pend (τ'.buf u) a ↔ Pend (τ.buf u) a ∨ (u = t ∧ ∃ v, w = .data a v) := by
  rw [hb]; unfold upd; split
  · subst_vars; rw [pend_snoc]; simp
  · rename_i h; simp [h]

theorem Only.push (hb : τ'.buf = upd τ.buf t (τ.buf t ++ [w])) (hm : τ'.mem = τ.mem) {a u : Nat}
    (hl : τ'.last a = τ.last a) (hw : ∀ v, w ≠ .data a v) (h : Only τ a u) : Only τ' a u := by
  refine ⟨fun z hz hp => ?_, ?_⟩
  · rcases (push_pend hb).1 hp with hp | ⟨_, v, hv⟩
    · exact h.1 z hz hp
    · exact hw v hv
  · rw [hm, hl, ← h.2, hb]
    by_cases e : u = t
    · subst e
      rw [upd_same]
      cases w with
      | data x v =>
        rw [view_snoc, upd_ne]
        rintro rfl; exact hw v rfl
      | unlock l => rw [view_token (show (W.unlock l).Token from trivial)]
      | send c i => rw [view_token (show (W.send c i).Token from trivial)]
    · rw [upd_ne e]

theorem Arrived.push (hb : τ'.buf = upd τ.buf t (τ.buf t ++ [w])) (hm : τ'.mem = τ.mem) {a : Nat}
    (hl : τ'.last a = τ.last a) (hw : ∀ v, w ≠ .data a v) (h : Arrived τ a) : Arrived τ' a := by
  refine ⟨fun z hp => ?_, by rw [hm, hl]; exact h.2⟩
  rcases (push_pend hb).1 hp with hp | ⟨_, v, hv⟩
  · exact h.1 z hp
  · exact hw v hv

theorem Behind.push (hb : τ'.buf = upd τ.buf t (τ.buf t ++ [w])) {a u : Nat} {z : W} (hw : ∀ v, w ≠ .data a v)
    (h : Behind τ a u z) : Behind τ' a u z := by
  obtain ⟨x, y, h1, h2⟩ := h
  by_cases e : u = t
  · subst e
    refine ⟨x, y ++ [w], by rw [hb, upd_same, h1]; simp, fun hp => ?_⟩
    rcases pend_snoc.1 hp with hp | ⟨v, hv⟩
    · exact h2 hp
    · exact hw v hv
  · exact ⟨x, y, by rw [hb, upd_ne e, h1], h2⟩

theorem behind_last (hb : τ'.buf = upd τ.buf t (τ.buf t ++ [w])) (a : Nat) : Behind τ' a t w :=
  ⟨τ.buf t, [], by rw [hb, upd_same], fun ⟨_, h⟩ => by cases h⟩

end push

theorem Uniq.push {buf : Nat → List W} {t : Nat} {w : W} (h : Uniq buf) (hw : ∀ u z, z ∈ buf u → ¬ z.Same w) :
    Uniq (upd buf t (buf t ++ [w])) := by
  have sp : ∀ u x y (z : W), upd buf t (buf t ++ [w]) u = x ++ z :: y →
      (u = t ∧ z = w ∧ x = buf t ∧ y = []) ∨ ∃ y', buf u = x ++ z :: y' ∧ (if u = t then y = y' ++ [w] else y = y') := by
    intro u x y z hu
    by_cases e : u = t
    · subst e
      rw [upd_same] at hu
      rcases snoc_split hu with ⟨h1, h2, h3⟩ | ⟨y', h1, h2⟩
      · exact Or.inl ⟨rfl, h2, h3, h1⟩
      · exact Or.inr ⟨y', h2, by rw [if_pos rfl]; exact h1⟩
    · rw [upd_ne e] at hu
      exact Or.inr ⟨y, hu, by rw [if_neg e]⟩
  intro a b x y x' y' z z' ha hb hs
  have inn : ∀ u x y (z : W), buf u = x ++ z :: y → z ∈ buf u := by intro u x y z h; rw [h]; simp
  rcases sp a x y z ha with ⟨rfl, rfl, rfl, rfl⟩ | ⟨ya, h1, h2⟩ <;>
    rcases sp b x' y' z' hb with ⟨rfl, rfl, rfl, rfl⟩ | ⟨yb, h3, h4⟩
  · exact ⟨rfl, rfl, rfl⟩
  · exact absurd hs.symm (hw _ _ (inn _ _ _ _ h3))
  · exact absurd hs (hw _ _ (inn _ _ _ _ h1))
  · obtain ⟨rfl, rfl, rfl⟩ := h _ _ _ _ _ _ _ _ h1 h3 hs
    refine ⟨rfl, rfl, ?_⟩
    split at h2
    · rw [if_pos ‹_›] at h4; rw [h2, h4]
    · rw [if_neg ‹_›] at h4; rw [h2, h4]

theorem Uniq.pop {buf : Nat → List W} {t : Nat} {w : W} {l : List W} (h : Uniq buf) (hb : buf t = w :: l) :
    Uniq (upd buf t l) := by
  have sp : ∀ u x y (z : W), upd buf t l u = x ++ z :: y → buf u = (if u = t then w :: x else x) ++ z :: y := by
    intro u x y z hu
    by_cases e : u = t
    · subst e
      rw [upd_same] at hu
      rw [if_pos rfl, hb, hu]; rfl
    · rw [upd_ne e] at hu
      rw [if_neg e, hu]
  intro a b x y x' y' z z' ha hb' hs
  obtain ⟨rfl, h2, rfl⟩ := h _ _ _ _ _ _ _ _ (sp _ _ _ _ ha) (sp _ _ _ _ hb') hs
  refine ⟨rfl, ?_, rfl⟩
  split at h2
  · exact List.tail_eq_of_cons_eq h2
  · exact h2

theorem Inv.swap {τ : T} (I : Inv τ) {t l : Nat} (h0 : τ.word l = 0) :
    Inv { τ with word := upd τ.word l 1, holds := upd τ.holds t (fun k => k = l ∨ τ.holds t k) } := by
  have hh : ∀ u k, upd τ.holds t (fun k => k = l ∨ τ.holds t k) u k → (u = t ∧ k = l) ∨ τ.holds u k := by
    intro u k
    unfold upd
    split
    · subst_vars; rintro (h | h)
      · exact Or.inl ⟨rfl, h⟩
      · exact Or.inr h
    · exact Or.inr
  refine ⟨?_, ?_, I.box, I.pos, I.sent, I.uniq, I.thread, ?_, I.msg⟩
  · intro k hk u
    have hne : k ≠ l := by rintro rfl; simp [upd_same] at hk
    simp only [upd_ne hne] at hk
    refine ⟨fun h => ?_, (I.free k hk u).2⟩
    rcases hh u k h with ⟨_, h⟩ | h
    · exact hne h
    · exact (I.free k hk u).1 h
  · intro u k hu
    rcases hh u k hu with ⟨rfl, rfl⟩ | h
    · refine ⟨fun v hv h => ?_, fun v => (I.free k h0 v).2⟩
      simp only [upd_ne hv] at h
      exact (I.free k h0 v).1 h
    · refine ⟨fun v hv h' => ?_, (I.one u k h).2⟩
      rcases hh v k h' with ⟨_, rfl⟩ | h'
      · exact (I.free k h0 u).1 h
      · exact (I.one u k h).1 v hv h'
  · intro a k ha
    obtain ⟨h1, h2, h3⟩ := I.lock a k ha
    refine ⟨fun u hu => ?_, h2, fun hk => ?_⟩
    · rcases hh u k hu with ⟨rfl, rfl⟩ | h
      · exact (h3 h0).only u
      · exact h1 u h
    · have hne : k ≠ l := by rintro rfl; simp [upd_same] at hk
      simp only [upd_ne hne] at hk
      exact h3 hk

theorem Inv.store {τ : T} (I : Inv τ) {t a : Nat} (v : Nat) (ha : May τ t a) :
    Inv { τ with buf := upd τ.buf t (τ.buf t ++ [.data a v]), last := upd τ.last a v } := by
  have hb : ({ τ with buf := upd τ.buf t (τ.buf t ++ [.data a v]), last := upd τ.last a v } : T).buf =
    upd τ.buf t (τ.buf t ++ [.data a v]) := rfl
  generalize eτ : ({ τ with buf := upd τ.buf t (τ.buf t ++ [.data a v]), last := upd τ.last a v } : T) = τ' at hb ⊢
  have hm : τ'.mem = τ.mem := by rw [← eτ]
  have hl : τ'.last = upd τ.last a v := by rw [← eτ]
  have hw : τ'.word = τ.word := by rw [← eτ]
  have hh : τ'.holds = τ.holds := by rw [← eτ]
  have hx : τ'.box = τ.box := by rw [← eτ]
  have hn : τ'.nxt = τ.nxt := by rw [← eτ]
  have ho : τ'.own = τ.own := by rw [← eτ]
  clear eτ
  have tok : ∀ {u z}, z ∈ τ'.buf u → (∀ v, z ≠ .data a v) → z ∈ τ.buf u := by
    intro u z hz hne
    rcases (push_mem hb).1 hz with h | ⟨_, h⟩
    · exact h
    · exact absurd h (hne v)
  have only : Only τ a t → Only τ' a t := by
    intro h
    refine ⟨fun u hu hp => ?_, ?_⟩
    · rcases (push_pend hb).1 hp with hp | ⟨e, _⟩
      · exact h.1 u hu hp
      · exact hu e
    · rw [hb, hm, hl, upd_same, view_snoc, upd_same, upd_same]
  have oth : ∀ {b u}, b ≠ a → Only τ b u → Only τ' b u := by
    intro b u hne h
    exact h.push hb hm (by rw [hl, upd_ne hne]) (by rintro v' h; cases h; exact hne rfl)
  have arr : ∀ {b}, b ≠ a → Arrived τ b → Arrived τ' b := by
    intro b hne h
    exact h.push hb hm (by rw [hl, upd_ne hne]) (by rintro v' h; cases h; exact hne rfl)
  have beh : ∀ {b u z}, b ≠ a → Behind τ b u z → Behind τ' b u z := by
    intro b u z hne h
    exact h.push hb (by rintro v' h; cases h; exact hne rfl)
  refine ⟨?_, ?_, ?_, by rw [hn]; exact I.pos, ?_, ?_, ?_, ?_, ?_⟩
  · intro k hk u
    rw [hw] at hk; rw [hh]
    exact ⟨(I.free k hk u).1, fun h => (I.free k hk u).2 (tok h (by simp))⟩
  · intro u k hk
    rw [hh] at hk ⊢
    exact ⟨(I.one u k hk).1, fun z h => (I.one u k hk).2 z (tok h (by simp))⟩
  · intro c
    rw [hx, hn]
    exact ⟨(I.box c).1, fun u d h => (I.box c).2 u d (tok h (by simp))⟩
  · intro u c i h
    rw [hn]
    exact I.sent u c i (tok h (by simp))
  · rw [hb]
    refine I.uniq.push ?_
    rintro u z _ (⟨l, rfl, h⟩ | ⟨c, d, i, rfl, h⟩) <;> cases h
  · intro b u h
    rw [ho] at h
    by_cases e : b = a
    · subst e
      have : u = t := by
        rcases ha with ha | ⟨l, _, ha⟩
        · rw [ha] at h; cases h; rfl
        · rw [ha] at h; cases h
      subst this
      exact only (I.thread b u h)
    · exact oth e (I.thread b u h)
  · intro b l h
    rw [ho] at h
    obtain ⟨h1, h2, h3⟩ := I.lock b l h
    rw [hh, hw]
    by_cases e : b = a
    · subst e
      have hl : τ.holds t l := by
        rcases ha with ha | ⟨k, hk, ha⟩
        · rw [ha] at h; cases h
        · rw [ha] at h; cases h; exact hk
      refine ⟨fun u hu => ?_, fun u hu => ?_, fun h0 => ?_⟩
      · have : u = t := Classical.byContradiction fun hne => (I.one t l hl).1 u hne hu
        subst this
        exact only (h1 u hu)
      · exact absurd (tok hu (by simp)) ((I.one t l hl).2 u)
      · exact absurd hl (I.free l h0 t).1
    · refine ⟨fun u hu => oth e (h1 u hu), fun u hu => ?_, fun h0 => arr e (h3 h0)⟩
      have := h2 u (tok hu (by simp))
      exact ⟨oth e this.1, beh e this.2⟩
  · intro b i h
    rw [ho] at h
    obtain ⟨h0, h1, h2⟩ := I.msg b i h
    have e : b ≠ a := by
      rintro rfl
      rcases ha with ha | ⟨l, _, ha⟩ <;> rw [ha] at h <;> cases h
    rw [hn]
    refine ⟨h0, h1, ?_⟩
    rcases h2 with ⟨u, c, hu, ho, hb'⟩ | ⟨hu, h2⟩
    · exact Or.inl ⟨u, c, (push_mem hb).2 (Or.inl hu), oth e ho, beh e hb'⟩
    · exact Or.inr ⟨fun u c h => hu u c (tok h (by simp)), arr e h2⟩

theorem Inv.own1 {τ : T} (I : Inv τ) {a : Nat} {o : Own} (h1 : ∀ t, o = .thread t → Only τ a t)
    (h2 : ∀ l, o = .lock l → (∀ t, τ.holds t l → Only τ a t) ∧
      (∀ t, W.unlock l ∈ τ.buf t → Only τ a t ∧ Behind τ a t (.unlock l)) ∧ (τ.word l = 0 → Arrived τ a))
    (h3 : ∀ i, o ≠ .msg i) : Inv { τ with own := upd τ.own a o } := by
  refine ⟨I.free, I.one, I.box, I.pos, I.sent, I.uniq, ?_, ?_, ?_⟩
  · intro b t h
    dsimp only [upd] at h
    split at h
    · subst_vars; exact h1 t rfl
    · exact I.thread b t h
  · intro b l h
    dsimp only [upd] at h
    split at h
    · subst_vars; exact h2 l rfl
    · exact I.lock b l h
  · intro b i h
    dsimp only [upd] at h
    split at h
    · subst_vars; exact absurd rfl (h3 i)
    · exact I.msg b i h

theorem Inv.take {τ : T} (I : Inv τ) {t l a : Nat} (hl : τ.holds t l) (ha : τ.own a = .lock l) :
    Inv { τ with own := upd τ.own a (.thread t) } :=
  I.own1 (fun u h => by cases h; exact (I.lock a l ha).1 t hl) (fun _ h => by cases h) (fun _ h => by cases h)

theorem Inv.put {τ : T} (I : Inv τ) {t l a : Nat} (hl : τ.holds t l) (ha : τ.own a = .thread t) :
    Inv { τ with own := upd τ.own a (.lock l) } := by
  refine I.own1 (fun u h => by cases h) (fun k h => ?_) (fun _ h => by cases h)
  cases h
  refine ⟨fun u hu => ?_, fun u hu => absurd hu ((I.one t l hl).2 u), fun h0 => absurd hl (I.free l h0 t).1⟩
  have : u = t := Classical.byContradiction fun hne => (I.one t l hl).1 u hne hu
  subst this
  exact I.thread a u ha

theorem readBox_mem {b : List W} {m : Nat → Nat} {c : Nat} :
    readBox b m c = m c ∨ W.send c (readBox b m c) ∈ b := by
  induction b generalizing m with
  | nil => exact Or.inl rfl
  | cons w b ih =>
    cases w with
    | data x v =>
      rcases ih (m := m) with h | h
      · exact Or.inl h
      · exact Or.inr (List.mem_cons_of_mem _ h)
    | unlock l =>
      rcases ih (m := m) with h | h
      · exact Or.inl h
      · exact Or.inr (List.mem_cons_of_mem _ h)
    | send d i =>
      have e : readBox (W.send d i :: b) m c = readBox b (upd m d i) c := rfl
      rw [e]
      rcases ih (m := upd m d i) with h | h
      · by_cases hc : c = d
        · subst hc
          rw [upd_same] at h
          rw [h]
          exact Or.inr List.mem_cons_self
        · rw [upd_ne hc] at h
          exact Or.inl h
      · exact Or.inr (List.mem_cons_of_mem _ h)

theorem Inv.recv {τ : T} (I : Inv τ) {t c : Nat} :
    Inv { τ with own := fun a => if τ.own a = .msg (readBox (τ.buf t) τ.box c) then .thread t else τ.own a } := by
  have key : ∀ a, τ.own a = .msg (readBox (τ.buf t) τ.box c) → Only τ a t := by
    intro a ha
    obtain ⟨_, _, h2⟩ := I.msg a _ ha
    rcases h2 with ⟨u, d, hu, ho, _⟩ | ⟨_, h⟩
    · rcases readBox_mem (b := τ.buf t) (m := τ.box) (c := c) with h | h
      · rw [h] at hu; exact absurd hu ((I.box c).2 u d)
      · obtain ⟨x, y, h1⟩ := List.append_of_mem hu
        obtain ⟨x', y', h2⟩ := List.append_of_mem h
        obtain ⟨rfl, _⟩ := I.uniq _ _ _ _ _ _ _ _ h1 h2 (Or.inr ⟨_, _, _, rfl, rfl⟩)
        exact ho
    · exact h.only t
  refine ⟨I.free, I.one, I.box, I.pos, I.sent, I.uniq, ?_, ?_, ?_⟩
  · intro b u h
    dsimp only at h
    split at h
    · cases h; exact key b ‹_›
    · exact I.thread b u h
  · intro b l h
    dsimp only at h
    split at h
    · cases h
    · exact I.lock b l h
  · intro b i h
    dsimp only at h
    split at h
    · cases h
    · exact I.msg b i h

/-- A thread delays an unlock or a message: what is needed of locks, messages and owners. -/
theorem Inv.push {τ τ' : T} (I : Inv τ) {t : Nat} {w : W} (hb : τ'.buf = upd τ.buf t (τ.buf t ++ [w]))
    (hm : τ'.mem = τ.mem) (hl : τ'.last = τ.last) (hd : ∀ a v, w ≠ .data a v) (hs : ∀ u z, z ∈ τ.buf u → ¬ z.Same w)
    (free : ∀ l, τ'.word l = 0 → ∀ t, ¬ τ'.holds t l ∧ W.unlock l ∉ τ'.buf t)
    (one : ∀ t l, τ'.holds t l → (∀ u, u ≠ t → ¬ τ'.holds u l) ∧ ∀ u, W.unlock l ∉ τ'.buf u)
    (box : ∀ c, τ'.box c < τ'.nxt ∧ ∀ t d, W.send d (τ'.box c) ∉ τ'.buf t)
    (pos : 0 < τ'.nxt) (sent : ∀ t c i, W.send c i ∈ τ'.buf t → 0 < i ∧ i < τ'.nxt)
    (thread : ∀ a t, τ'.own a = .thread t → Only τ a t)
    (lock : ∀ a l, τ'.own a = .lock l → (∀ t, τ'.holds t l → Only τ a t) ∧
      (∀ t, W.unlock l ∈ τ'.buf t → Only τ a t ∧ (Behind τ a t (.unlock l) ∨ Behind τ' a t (.unlock l))) ∧
      (τ'.word l = 0 → Arrived τ a))
    (msg : ∀ a i, τ'.own a = .msg i → 0 < i ∧ i < τ'.nxt ∧
      ((∃ t c, W.send c i ∈ τ'.buf t ∧ Only τ a t ∧ (Behind τ a t (.send c i) ∨ Behind τ' a t (.send c i))) ∨
        ((∀ t c, W.send c i ∉ τ'.buf t) ∧ Arrived τ a))) : Inv τ' := by
  have only : ∀ {a u}, Only τ a u → Only τ' a u := fun h => h.push hb hm (by rw [hl]) (hd _)
  have arr : ∀ {a}, Arrived τ a → Arrived τ' a := fun h => h.push hb hm (by rw [hl]) (hd _)
  have beh : ∀ {a u z}, Behind τ a u z ∨ Behind τ' a u z → Behind τ' a u z :=
    fun h => h.elim (fun h => h.push hb (hd _)) id
  refine ⟨free, one, box, pos, sent, by rw [hb]; exact I.uniq.push hs, fun a u h => only (thread a u h), ?_, ?_⟩
  · intro a l h
    obtain ⟨h1, h2, h3⟩ := lock a l h
    exact ⟨fun u hu => only (h1 u hu), fun u hu => ⟨only (h2 u hu).1, beh (h2 u hu).2⟩, fun h0 => arr (h3 h0)⟩
  · intro a i h
    obtain ⟨h0, h1, h2⟩ := msg a i h
    refine ⟨h0, h1, ?_⟩
    rcases h2 with ⟨u, c, hu, ho, hb'⟩ | ⟨hu, h2⟩
    · exact Or.inl ⟨u, c, hu, only ho, beh hb'⟩
    · exact Or.inr ⟨hu, arr h2⟩

theorem Inv.unlock {τ : T} (I : Inv τ) {t l : Nat} (hl : τ.holds t l) :
    Inv { τ with holds := upd τ.holds t (fun k => k ≠ l ∧ τ.holds t k), buf := upd τ.buf t (τ.buf t ++ [.unlock l]) } := by
  have hh : ∀ {u k}, upd τ.holds t (fun k => k ≠ l ∧ τ.holds t k) u k → τ.holds u k := by
    intro u k
    unfold upd
    split
    · subst_vars; exact And.right
    · exact id
  have hn : ∀ u, ¬ upd τ.holds t (fun k => k ≠ l ∧ τ.holds t k) u l := by
    intro u
    unfold upd
    split
    · exact fun h => h.1 rfl
    · rename_i hne; exact (I.one t l hl).1 u hne
  have tok : ∀ {u z}, z ∈ upd τ.buf t (τ.buf t ++ [W.unlock l]) u → z ∈ τ.buf u ∨ (u = t ∧ z = .unlock l) := by
    intro u z h
    unfold upd at h
    split at h
    · subst_vars
      rcases List.mem_append.1 h with h | h
      · exact Or.inl h
      · exact Or.inr ⟨rfl, List.mem_singleton.1 h⟩
    · exact Or.inl h
  have tok' : ∀ {u c i}, W.send c i ∈ upd τ.buf t (τ.buf t ++ [W.unlock l]) u → W.send c i ∈ τ.buf u := by
    intro u c i h
    rcases tok h with h | ⟨_, h⟩
    · exact h
    · cases h
  refine I.push (t := t) (w := .unlock l) rfl rfl rfl (by simp) ?_ ?_ ?_ ?_ I.pos ?_ I.thread ?_ ?_
  · rintro u z hz (⟨k, rfl, h⟩ | ⟨c, d, i, rfl, h⟩)
    · cases h; exact (I.one t l hl).2 u hz
    · cases h
  · intro k hk u
    refine ⟨fun h => (I.free k hk u).1 (hh h), fun h => ?_⟩
    rcases tok h with h | ⟨_, h⟩
    · exact (I.free k hk u).2 h
    · cases h; exact (I.free l hk t).1 hl
  · intro u k hk
    refine ⟨fun v hv h => (I.one u k (hh hk)).1 v hv (hh h), fun v h => ?_⟩
    rcases tok h with h | ⟨_, h⟩
    · exact (I.one u k (hh hk)).2 v h
    · cases h; exact hn u hk
  · exact fun c => ⟨(I.box c).1, fun u d h => (I.box c).2 u d (tok' h)⟩
  · exact fun u c i h => I.sent u c i (tok' h)
  · intro a k ha
    obtain ⟨h1, h2, h3⟩ := I.lock a k ha
    refine ⟨fun u hu => h1 u (hh hu), fun u hu => ?_, h3⟩
    rcases tok hu with hu | ⟨rfl, h⟩
    · exact ⟨(h2 u hu).1, Or.inl (h2 u hu).2⟩
    · cases h; exact ⟨h1 u hl, Or.inr (behind_last rfl a)⟩
  · intro a i ha
    obtain ⟨h0, h1, h2⟩ := I.msg a i ha
    refine ⟨h0, h1, ?_⟩
    rcases h2 with ⟨u, c, hu, ho, hb'⟩ | ⟨hu, h2⟩
    · refine Or.inl ⟨u, c, ?_, ho, Or.inl hb'⟩
      exact (push_mem (τ := τ) (τ' := { τ with buf := upd τ.buf t (τ.buf t ++ [.unlock l]) }) rfl).2 (Or.inl hu)
    · exact Or.inr ⟨fun u c h => hu u c (tok' h), h2⟩

theorem Inv.send {τ : T} (I : Inv τ) {t c : Nat} {A : Nat → Bool} (hA : ∀ a, A a = true → τ.own a = .thread t) :
    Inv { τ with own := fun a => if A a = true then .msg τ.nxt else τ.own a,
                 buf := upd τ.buf t (τ.buf t ++ [.send c τ.nxt]), nxt := τ.nxt + 1 } := by
  have tok : ∀ {u z}, z ∈ upd τ.buf t (τ.buf t ++ [W.send c τ.nxt]) u → z ∈ τ.buf u ∨ (u = t ∧ z = .send c τ.nxt) := by
    intro u z h
    unfold upd at h
    split at h
    · subst_vars
      rcases List.mem_append.1 h with h | h
      · exact Or.inl h
      · exact Or.inr ⟨rfl, List.mem_singleton.1 h⟩
    · exact Or.inl h
  have tok' : ∀ {u l}, W.unlock l ∈ upd τ.buf t (τ.buf t ++ [W.send c τ.nxt]) u → W.unlock l ∈ τ.buf u := by
    intro u l h
    rcases tok h with h | ⟨_, h⟩
    · exact h
    · cases h
  have inn : ∀ {u z}, z ∈ τ.buf u → z ∈ upd τ.buf t (τ.buf t ++ [W.send c τ.nxt]) u := by
    intro u z h
    exact (push_mem (τ := τ) (τ' := { τ with buf := upd τ.buf t (τ.buf t ++ [.send c τ.nxt]) }) rfl).2 (Or.inl h)
  have last : W.send c τ.nxt ∈ upd τ.buf t (τ.buf t ++ [W.send c τ.nxt]) t :=
    (push_mem (τ := τ) (τ' := { τ with buf := upd τ.buf t (τ.buf t ++ [.send c τ.nxt]) }) rfl).2 (Or.inr ⟨rfl, rfl⟩)
  have old : ∀ {u d i}, W.send d i ∈ τ.buf u → i ≠ τ.nxt := fun h => Nat.ne_of_lt (I.sent _ _ _ h).2
  refine I.push (t := t) (w := .send c τ.nxt) rfl rfl rfl (by simp) ?_ ?_ ?_ ?_ (Nat.succ_pos _) ?_ ?_ ?_ ?_
  · rintro u z hz (⟨k, rfl, h⟩ | ⟨c, d, i, rfl, h⟩)
    · cases h
    · cases h; exact old hz rfl
  · exact fun l hl u => ⟨(I.free l hl u).1, fun h => (I.free l hl u).2 (tok' h)⟩
  · exact fun u l hl => ⟨(I.one u l hl).1, fun v h => (I.one u l hl).2 v (tok' h)⟩
  · intro d
    refine ⟨Nat.lt_succ_of_lt (I.box d).1, fun u e h => ?_⟩
    rcases tok h with h | ⟨_, h⟩
    · exact (I.box d).2 u e h
    · exact absurd (W.send.inj h).2 (Nat.ne_of_lt (I.box d).1)
  · intro u d i h
    rcases tok h with h | ⟨_, h⟩
    · exact ⟨(I.sent u d i h).1, Nat.lt_succ_of_lt (I.sent u d i h).2⟩
    · cases h; exact ⟨I.pos, Nat.lt_succ_self _⟩
  · intro a u h
    dsimp only at h
    split at h
    · cases h
    · exact I.thread a u h
  · intro a l h
    dsimp only at h
    split at h
    · cases h
    · obtain ⟨h1, h2, h3⟩ := I.lock a l h
      exact ⟨h1, fun u hu => ⟨(h2 u (tok' hu)).1, Or.inl (h2 u (tok' hu)).2⟩, h3⟩
  · intro a i h
    dsimp only at h
    split at h
    · rename_i ha
      cases h
      exact ⟨I.pos, Nat.lt_succ_self _, Or.inl ⟨t, c, last, I.thread a t (hA a ha), Or.inr (behind_last rfl a)⟩⟩
    · obtain ⟨h0, h1, h2⟩ := I.msg a i h
      refine ⟨h0, Nat.lt_succ_of_lt h1, ?_⟩
      rcases h2 with ⟨u, d, hu, ho, hb'⟩ | ⟨hu, h2⟩
      · exact Or.inl ⟨u, d, inn hu, ho, Or.inl hb'⟩
      · refine Or.inr ⟨fun u d h => ?_, h2⟩
        rcases tok h with h | ⟨_, h⟩
        · exact hu u d h
        · cases h; exact absurd h1 (Nat.lt_irrefl _)

section pop
variable {τ τ' : T} {t : Nat} {w : W} {l : List W}

theorem pop_mem (hb : τ.buf t = w :: l) (hb' : τ'.buf = upd τ.buf t l) {u : Nat} {z : W} (h : z ∈ τ'.buf u) :
    z ∈ τ.buf u := by
  rw [hb'] at h; unfold upd at h; split at h
  · subst_vars; rw [hb]; exact List.mem_cons_of_mem _ h
  · exact h

theorem pop_pend (hb : τ.buf t = w :: l) (hb' : τ'.buf = upd τ.buf t l) {u a : Nat} (h : Pend (τ'.buf u) a) :
    Pend (τ.buf u) a := h.imp fun _ h => pop_mem hb hb' h

theorem mem_pop (hb : τ.buf t = w :: l) (hb' : τ'.buf = upd τ.buf t l) {u : Nat} {z : W} (h : z ∈ τ.buf u)
    (hz : z ≠ w) : z ∈ τ'.buf u := by
  rw [hb']; unfold upd; split
  · subst_vars; rw [hb] at h
    rcases List.mem_cons.1 h with h | h
    · exact absurd h hz
    · exact h
  · exact h

theorem Behind.pop (hb : τ.buf t = w :: l) (hb' : τ'.buf = upd τ.buf t l) {u a : Nat} {z : W} (hz : z ≠ w)
    (h : Behind τ a u z) : Behind τ' a u z := by
  obtain ⟨x, y, h1, h2⟩ := h
  by_cases e : u = t
  · subst e
    rw [hb] at h1
    cases x with
    | nil => cases h1; exact absurd rfl hz
    | cons q x => cases h1; exact ⟨x, y, by rw [hb', upd_same]; rfl, h2⟩
  · exact ⟨x, y, by rw [hb', upd_ne e, h1], h2⟩

/-- A store into data or not reaches the memory. -/
theorem Only.pop (hb : τ.buf t = w :: l) (hb' : τ'.buf = upd τ.buf t l)
    (hm : τ'.mem = view [w] τ.mem) (hl : τ'.last = τ.last) {a u : Nat} (h : Only τ a u) : Only τ' a u := by
  refine ⟨fun v hv hp => h.1 v hv (pop_pend hb hb' hp), ?_⟩
  rw [hl, ← h.2, hb', hm]
  by_cases e : u = t
  · subst e
    rw [upd_same, hb]; rfl
  · rw [upd_ne e]
    refine view_mem (view_notPend ?_ _)
    rintro ⟨v, hv⟩
    refine h.1 t (Ne.symm e) ⟨v, ?_⟩
    rw [hb, List.mem_singleton.1 hv]; exact List.mem_cons_self

theorem Arrived.pop (hb : τ.buf t = w :: l) (hb' : τ'.buf = upd τ.buf t l)
    (hm : τ'.mem = view [w] τ.mem) (hl : τ'.last = τ.last) {a : Nat} (h : Arrived τ a) : Arrived τ' a :=
  ((h.only t).pop hb hb' hm hl).arrived fun hp => h.1 t (pop_pend hb hb' hp)

/-- When an unlock or a message reaches the memory, the stores before it have. -/
theorem Behind.arrived (hb : τ.buf t = w :: l) (hb' : τ'.buf = upd τ.buf t l)
    (hm : τ'.mem = view [w] τ.mem) (hl : τ'.last = τ.last) (hu : Uniq τ.buf) (hs : w.Same w) {a : Nat} (ho : Only τ a t)
    (h : Behind τ a t w) : Arrived τ' a := by
  refine (ho.pop hb hb' hm hl).arrived ?_
  obtain ⟨x, y, h1, h2⟩ := h
  obtain ⟨_, _, rfl⟩ := hu t t [] l x y w w hb h1 hs
  rw [hb', upd_same]; exact h2

end pop

theorem Inv.flush {τ : T} (I : Inv τ) {t : Nat} {w : W} {l : List W} (hb : τ.buf t = w :: l) :
    Inv (w.apply { τ with buf := upd τ.buf t l }) := by
  have e1 : (w.apply { τ with buf := upd τ.buf t l }).buf = upd τ.buf t l := by cases w <;> rfl
  have e2 : (w.apply { τ with buf := upd τ.buf t l }).mem = view [w] τ.mem := by cases w <;> rfl
  have e3 : (w.apply { τ with buf := upd τ.buf t l }).last = τ.last := by cases w <;> rfl
  have e4 : (w.apply { τ with buf := upd τ.buf t l }).own = τ.own := by cases w <;> rfl
  have e5 : (w.apply { τ with buf := upd τ.buf t l }).holds = τ.holds := by cases w <;> rfl
  have e6 : (w.apply { τ with buf := upd τ.buf t l }).nxt = τ.nxt := by cases w <;> rfl
  have e7 : ∀ k, (w.apply { τ with buf := upd τ.buf t l }).word k = if w = .unlock k then 0 else τ.word k := by
    intro k
    cases w with
    | data a v => simp [W.apply]
    | send c i => simp [W.apply]
    | unlock j =>
      simp only [W.apply, upd, W.unlock.injEq]
      by_cases e : k = j
      · subst e; simp
      · simp [e, Ne.symm e]
  have e8 : ∀ c, (w.apply { τ with buf := upd τ.buf t l }).box c = τ.box c ∨
      w = .send c ((w.apply { τ with buf := upd τ.buf t l }).box c) := by
    intro c
    cases w with
    | data a v => exact Or.inl rfl
    | unlock j => exact Or.inl rfl
    | send d i =>
      by_cases e : c = d
      · subst e
        refine Or.inr ?_
        show W.send c i = W.send c (upd τ.box c i c)
        rw [upd_same]
      · exact Or.inl (upd_ne e)
  generalize w.apply { τ with buf := upd τ.buf t l } = τ' at *
  have only : ∀ {a u}, Only τ a u → Only τ' a u := fun h => h.pop hb e1 e2 e3
  have arr : ∀ {a}, Arrived τ a → Arrived τ' a := fun h => h.pop hb e1 e2 e3
  have hd : w ∈ τ.buf t := by rw [hb]; exact List.mem_cons_self
  have gone : ∀ {z u}, z.Same w → z ∉ τ'.buf u := by
    intro z u hs hz
    rw [e1] at hz
    obtain ⟨x, y, h1⟩ := List.append_of_mem hz
    have h2 : τ.buf u = (if u = t then w :: x else x) ++ z :: y := by
      by_cases e : u = t
      · subst e; rw [upd_same] at h1; rw [if_pos rfl, hb, h1]; rfl
      · rw [upd_ne e] at h1; rw [if_neg e, h1]
    obtain ⟨rfl, h3, _⟩ := I.uniq _ _ _ _ _ _ _ _ h2 (show τ.buf t = [] ++ w :: l from hb) hs
    rw [if_pos rfl] at h3
    cases h3
  refine ⟨?_, ?_, ?_, by rw [e6]; exact I.pos, ?_, by rw [e1]; exact I.uniq.pop hb, ?_, ?_, ?_⟩
  · intro k hk u
    rw [e7] at hk
    rw [e5]
    split at hk
    · rename_i hw
      subst hw
      refine ⟨fun h => (I.one u k h).2 t hd, gone (Or.inl ⟨k, rfl, rfl⟩)⟩
    · exact ⟨(I.free k hk u).1, fun h => (I.free k hk u).2 (pop_mem hb e1 h)⟩
  · intro u k hk
    rw [e5] at hk ⊢
    exact ⟨(I.one u k hk).1, fun v h => (I.one u k hk).2 v (pop_mem hb e1 h)⟩
  · intro c
    rw [e6]
    rcases e8 c with h | h
    · rw [h]
      exact ⟨(I.box c).1, fun u d h => (I.box c).2 u d (pop_mem hb e1 h)⟩
    · refine ⟨(I.sent t c _ (h ▸ hd)).2, fun u d hu => gone (Or.inr ⟨d, c, _, rfl, h⟩) hu⟩
  · intro u c i h
    rw [e6]
    exact I.sent u c i (pop_mem hb e1 h)
  · intro a u h
    rw [e4] at h
    exact only (I.thread a u h)
  · intro a k h
    rw [e4] at h
    obtain ⟨h1, h2, h3⟩ := I.lock a k h
    rw [e5, e7]
    refine ⟨fun u hu => only (h1 u hu), fun u hu => ?_, fun h0 => ?_⟩
    · have hk := pop_mem hb e1 hu
      refine ⟨only (h2 u hk).1, (h2 u hk).2.pop hb e1 ?_⟩
      rintro rfl
      exact gone (Or.inl ⟨k, rfl, rfl⟩) hu
    · split at h0
      · rename_i hw
        subst hw
        exact (h2 t hd).2.arrived hb e1 e2 e3 I.uniq (Or.inl ⟨k, rfl, rfl⟩) (h2 t hd).1
      · exact arr (h3 h0)
  · intro a i h
    rw [e4] at h
    obtain ⟨h0, h1, h2⟩ := I.msg a i h
    rw [e6]
    refine ⟨h0, h1, ?_⟩
    rcases h2 with ⟨u, c, hu, ho, hb'⟩ | ⟨hu, h2⟩
    · by_cases e : W.send c i = w
      · subst e
        obtain ⟨x, y, h5⟩ := List.append_of_mem hu
        obtain ⟨rfl, _⟩ := I.uniq _ _ _ _ _ _ _ _ h5 (show τ.buf t = [] ++ _ :: l from hb)
          (Or.inr ⟨_, _, _, rfl, rfl⟩)
        exact Or.inr ⟨fun v d => gone (Or.inr ⟨_, _, _, rfl, rfl⟩),
          hb'.arrived hb e1 e2 e3 I.uniq (Or.inr ⟨_, _, _, rfl, rfl⟩) ho⟩
      · exact Or.inl ⟨u, c, mem_pop hb e1 hu e, only ho, hb'.pop hb e1 e⟩
    · exact Or.inr ⟨fun u c h => hu u c (pop_mem hb e1 h), arr h2⟩

theorem Inv.init {m : Nat → Nat} {o : Nat → Own} (ho : ∀ a i, o a ≠ .msg i) : Inv (init m o) := by
  have ar : ∀ a, Arrived (Drf.init m o) a := fun a => ⟨fun u ⟨v, h⟩ => (by cases h), rfl⟩
  refine ⟨fun l _ t => ⟨id, by simp [Drf.init]⟩, fun t l h => h.elim, fun c => ⟨Nat.one_pos, by simp [Drf.init]⟩,
    Nat.one_pos, fun t c i h => (by cases h), ?_, fun a t _ => (ar a).only t, fun a l _ => ⟨fun t h => h.elim,
      fun t h => (by cases h), fun _ => ar a⟩, fun a i h => absurd h (ho a i)⟩
  intro t u x y x' y' w w' h
  cases x <;> cases h

theorem Inv.step {τ τ' : T} {e : Option Ev} (I : Inv τ) (st : Step true τ e τ') : Inv τ' := by
  cases st with
  | swap h => exact I.swap h
  | load h => exact I
  | store v h => exact I.store v h
  | take h1 h2 => exact I.take h1 h2
  | put h1 h2 => exact I.put h1 h2
  | unlock h => exact I.unlock h
  | send A h => exact I.send h
  | recv h => exact I.recv
  | @flush t l1 l2 w hb hl =>
    have := hl rfl
    subst this
    exact I.flush hb

theorem Run.inv {m : Nat → Nat} {es : List Ev} {τ : T} (h : Run true m es τ) : Inv τ := by
  induction h with
  | init o ho => exact Inv.init ho
  | step _ st ih => exact ih.step st

end Drf
end MpcAlloc
