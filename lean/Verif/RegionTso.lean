import Verif.Basic

/-
The tables of the regions (/repo/src/sctk_allocator.c 2209-2418) used by several threads on a machine whose threads have
store buffers (x86-TSO, as in Drf.lean). Entries are registered, removed and read; the table of a region is made at its first
use, under the lock of the regions. RegionInit.lean has the same without removals and without delayed stores, with the
initialisation of the lock, which is over here. With `fifo` the stores of a thread reach the memory in the order in which they
were executed; without it in any order.
-/

namespace MpcAlloc
namespace RegionTso

/-- Entries of the table of a region, sctk_alloc_common.h 106. -/
def N : Nat := 524288

/-- `sctk_alloc_glob_regions[i]`; the entry `e` of the table `r` (addresses of tables are replaced by numbers, 0 for NULL). -/
inductive Addr
  | reg (i : Nat)
  | ent (r e : Nat)
deriving DecidableEq

/-- A delayed store: into the tables, of 0 into the lock word, or of a pointer into the cell `c` by which another thread
learns of the registration number `id` (a block of the bloc, a list of a chain). -/
inductive W
  | data (a : Addr) (v : Nat)
  | unlock
  | send (c id : Nat)
deriving DecidableEq

/-- What a call wants: one turn of the loops of `sctk_alloc_region_set_entry` (2329-2338) and
`sctk_alloc_region_unset_entry` (2291-2297) for the bloc `b`, or the read of an entry by a search (2398-2411). Entries are
numbered from address 0, so the entry `k` is in the region `k / N`. -/
inductive Op
  | set (k b : Nat)
  | unset (k b : Nat)
  | look (k : Nat)
deriving DecidableEq

def Op.key : Op → Nat
  | .set k _ => k
  | .unset k _ => k
  | .look k => k

/-- Where a thread is in its call.
* `get`: at the read of `sctk_alloc_glob_regions[id]` in `sctk_alloc_region_get_entry` (2267);
* `acquire`: in the loop of the spinlock (2220);
* `check`: at the test under the lock (2223); `map`: at `sctk_mmap` (2226); `publish r`: at the store of the new table (2232);
* `unlock r`: at the unlock (2238);
* `use r`: at the access to the entry of the table `r`. -/
inductive Stage
  | get
  | acquire
  | check
  | map
  | publish (r : Nat)
  | unlock (r : Nat)
  | use (r : Nat)
deriving DecidableEq

/-- The lock word, the tables and the cells in memory, the store buffers (oldest store first), the number of the next table
that the kernel gives, the threads. Not in the code: the values last stored in the order of execution, the registrations that
stand (bloc and number), the number of the next registration, the registrations that a thread knows of, all registrations
(entry and bloc), the regions for which a table was published. -/
structure T where
  lock : Nat
  mem : Addr → Nat
  box : Nat → Nat
  buf : Nat → List W
  nxt : Nat
  pc : Nat → Option (Op × Stage)
  last : Addr → Nat
  std : Nat → Option (Nat × Nat)
  nid : Nat
  seen : Nat → Nat → Prop
  hist : List (Nat × Nat)
  maps : List Nat

def upd {α β : Type} [DecidableEq α] (f : α → β) (a : α) (v : β) : α → β := fun x => if x = a then v else f x

theorem upd_same {α β : Type} [DecidableEq α] (f : α → β) (a : α) (v : β) : upd f a v a = v := if_pos rfl
theorem upd_ne {α β : Type} [DecidableEq α] {f : α → β} {a x : α} {v : β} (h : x ≠ a) : upd f a v x = f x := if_neg h

/-- No tables. -/
def start : T :=
  ⟨0, fun _ => 0, fun _ => 0, fun _ => [], 1, fun _ => none, fun _ => 0, fun _ => none, 1, fun _ _ => False, [], []⟩

/-- A store reaches the memory. -/
def W.apply (τ : T) : W → T
  | .data a v => { τ with mem := upd τ.mem a v }
  | .unlock => { τ with lock := 0 }
  | .send c i => { τ with box := upd τ.box c i }

/-- The tables as a thread with buffer `b` reads them: its own latest store, else the memory. -/
def view (b : List W) (m : Addr → Nat) : Addr → Nat :=
  b.foldl (fun m w => match w with
    | .data a v => upd m a v
    | _ => m) m

/-- A cell as a thread with buffer `b` reads it. -/
def readBox (b : List W) (m : Nat → Nat) : Nat → Nat :=
  b.foldl (fun m w => match w with
    | .send c i => upd m c i
    | _ => m) m

def T.go (τ : T) (t : Nat) (p : Option (Op × Stage)) : T := { τ with pc := upd τ.pc t p }

/-- The thread executes a store. -/
def T.push (τ : T) (t : Nat) (w : W) : T := { τ with buf := upd τ.buf t (τ.buf t ++ [w]) }

/-- The store of `v` at `a`. -/
def T.store (τ : T) (t : Nat) (a : Addr) (v : Nat) : T := { τ.push t (.data a v) with last := upd τ.last a v }

/-- The thread reads the address `a`. -/
def T.read (τ : T) (t : Nat) (a : Addr) : Nat := view (τ.buf t) τ.mem a

/-- The table of the region of the entry `k` that was published last, and the address of the entry. -/
def T.tab (τ : T) (i : Nat) : Nat := τ.last (.reg i)
def T.cell (τ : T) (k : Nat) : Addr := .ent (τ.tab (k / N)) (k % N)

/-- The buffer has a store into `a`. -/
def Pend (b : List W) (a : Addr) : Prop := ∃ v, W.data a v ∈ b

/-- The conditions of the calls: a bloc is registered in entries that no bloc has, by one thread, which was given the memory
after the stores of the removal of the bloc that was there had arrived (memory goes from one thread to another through the
kernel or through a lock); it is removed by a thread that knows of the registration. -/
def T.May (τ : T) (t : Nat) : Op → Prop
  | .set k b => b ≠ 0 ∧ τ.std k = none ∧ (∀ u b c, τ.pc u ≠ some (.set k b, c) ∧ τ.pc u ≠ some (.unset k b, c)) ∧
      ∀ u, u ≠ t → ¬ Pend (τ.buf u) (τ.cell k)
  | .unset k b => ∃ id, τ.std k = some (b, id) ∧ τ.seen t id
  | .look _ => True

/-- `sctk_mmap` of a table (2226): the pages are 0. -/
def T.mapped (τ : T) : T :=
  { τ with mem := fun a => match a with
             | .ent r e => if r = τ.nxt then 0 else τ.mem (.ent r e)
             | .reg i => τ.mem (.reg i),
           nxt := τ.nxt + 1 }

/-- The registration does not stand any more when its removal begins. -/
def T.begin (τ : T) : Op → T
  | .unset k _ => { τ with std := upd τ.std k none }
  | _ => τ

/-- The steps, and the result of a `look` that ends. A failing `mmap` is left out: the code aborts. A turn of the spinlock that
finds 1 changes nothing and is left out. The test and the store of an entry are one step: no other thread stores into the entry. -/
inductive Step (fifo : Bool) (τ : T) : Option (Nat × Nat) → T → Prop
  | call {t : Nat} {o : Op} : τ.pc t = none → τ.May t o → Step fifo τ none ((τ.begin o).go t (some (o, .get)))
  | get {t : Nat} {o : Op} : τ.pc t = some (o, .get) → Step fifo τ none
      (τ.go t (some (o, if τ.read t (.reg (o.key / N)) = 0 then .acquire else .use (τ.read t (.reg (o.key / N))))))
  | acquire {t : Nat} {o : Op} : τ.pc t = some (o, .acquire) → τ.lock = 0 →
      Step fifo τ none ({ τ with lock := 1 }.go t (some (o, .check)))
  | check {t : Nat} {o : Op} : τ.pc t = some (o, .check) → Step fifo τ none
      (τ.go t (some (o, if τ.read t (.reg (o.key / N)) = 0 then .map else .unlock (τ.read t (.reg (o.key / N))))))
  | map {t : Nat} {o : Op} : τ.pc t = some (o, .map) → Step fifo τ none
      (τ.mapped.go t (some (o, .publish τ.nxt)))
  | publish {t : Nat} {o : Op} {r : Nat} : τ.pc t = some (o, .publish r) → Step fifo τ none
      ({ τ.store t (.reg (o.key / N)) r with maps := o.key / N :: τ.maps }.go t (some (o, .unlock r)))
  | unlock {t : Nat} {o : Op} {r : Nat} : τ.pc t = some (o, .unlock r) → Step fifo τ none
      ((τ.push t .unlock).go t (some (o, .use r)))
  | set {t k b r : Nat} : τ.pc t = some (.set k b, .use r) → τ.read t (.ent r (k % N)) = 0 → Step fifo τ none
      ({ τ.store t (.ent r (k % N)) b with std := upd τ.std k (some (b, τ.nid)), nid := τ.nid + 1,
                                            seen := fun u i => (u = t ∧ i = τ.nid) ∨ τ.seen u i,
                                            hist := (k, b) :: τ.hist }.go t none)
  | unset {t k b r : Nat} : τ.pc t = some (.unset k b, .use r) → τ.read t (.ent r (k % N)) = b → Step fifo τ none
      ((τ.store t (.ent r (k % N)) 0).go t none)
  | unsetNot {t k b r : Nat} : τ.pc t = some (.unset k b, .use r) → τ.read t (.ent r (k % N)) ≠ b → Step fifo τ none (τ.go t none)
  | look {t k r : Nat} : τ.pc t = some (.look k, .use r) → Step fifo τ (some (k, τ.read t (.ent r (k % N)))) (τ.go t none)
  | send {t c id : Nat} : τ.seen t id → Step fifo τ none (τ.push t (.send c id))
  | recv {t c : Nat} : readBox (τ.buf t) τ.box c ≠ 0 →
      Step fifo τ none { τ with seen := fun u i => (u = t ∧ i = readBox (τ.buf t) τ.box c) ∨ τ.seen u i }
  | flush {t : Nat} {l1 l2 : List W} {w : W} : τ.buf t = l1 ++ w :: l2 → (fifo = true → l1 = []) →
      Step fifo τ none (w.apply { τ with buf := upd τ.buf t (l1 ++ l2) })

/-- A registration that finds another bloc in its entry aborts (2333). -/
def T.Aborts (τ : T) (t : Nat) : Prop := ∃ k b r, τ.pc t = some (.set k b, .use r) ∧ τ.read t (.ent r (k % N)) ≠ 0

/-- Any number of threads. -/
inductive Reach (fifo : Bool) : T → Prop
  | start : Reach fifo start
  | step {τ τ' : T} {x : Option (Nat × Nat)} : Reach fifo τ → Step fifo τ x τ' → Reach fifo τ'

/-! ## Invariant -/

/-- Only `t` has delayed stores into `a`, and reads the last value. -/
def Only (τ : T) (a : Addr) (t : Nat) : Prop := (∀ u, u ≠ t → ¬ Pend (τ.buf u) a) ∧ view (τ.buf t) τ.mem a = τ.last a

/-- No store into `a` is delayed, and the memory has the last value. -/
def Arrived (τ : T) (a : Addr) : Prop := (∀ u, ¬ Pend (τ.buf u) a) ∧ τ.mem a = τ.last a

/-- The table of the region `i` is in memory or in the buffer of `t`. -/
def Sees (τ : T) (t i : Nat) : Prop := τ.mem (.reg i) = τ.tab i ∨ Pend (τ.buf t) (.reg i)

/-- The stages at which the lock is held. -/
def Stage.Holds : Stage → Prop
  | .check => True
  | .map => True
  | .publish _ => True
  | .unlock _ => True
  | _ => False

/-- What a thread at a stage of a call for an entry of the region `i` knows. -/
def Knows (τ : T) (t i : Nat) : Stage → Prop
  | .map => τ.tab i = 0
  | .publish r => τ.tab i = 0 ∧ r ≠ 0 ∧ r < τ.nxt ∧ (∀ j, τ.tab j ≠ r) ∧ ∀ e, Arrived τ (.ent r e) ∧ τ.last (.ent r e) = 0
  | .unlock r => r = τ.tab i ∧ r ≠ 0 ∧ Sees τ t i
  | .use r => r = τ.tab i ∧ r ≠ 0 ∧ Sees τ t i
  | _ => True

/-- What a thread in a call knows of its entry. -/
def Has (τ : T) (t : Nat) : Op → Prop
  | .set k b => b ≠ 0 ∧ τ.std k = none ∧ (τ.tab (k / N) ≠ 0 → Only τ (τ.cell k) t) ∧
      (∀ u b' c', τ.pc u ≠ some (.unset k b', c')) ∧ ∀ u b' c', τ.pc u = some (.set k b', c') → u = t
  | .unset k b => b ≠ 0 ∧ τ.std k = none ∧ τ.tab (k / N) ≠ 0 ∧ Only τ (τ.cell k) t ∧ τ.last (τ.cell k) = b ∧
      ∀ u b' c', τ.pc u = some (.unset k b', c') → u = t
  | .look _ => True

structure Inv (τ : T) : Prop where
  pos : 0 < τ.nxt
  npos : 0 < τ.nid
  free : τ.lock = 0 → ∀ t, (∀ o c, τ.pc t = some (o, c) → ¬ c.Holds) ∧ W.unlock ∉ τ.buf t
  one : ∀ t o c, τ.pc t = some (o, c) → c.Holds →
    (∀ u, u ≠ t → ∀ o' c', τ.pc u = some (o', c') → ¬ c'.Holds) ∧ ∀ u, W.unlock ∉ τ.buf u
  uniq : ∀ t u x y x' y', τ.buf t = x ++ W.unlock :: y → τ.buf u = x' ++ W.unlock :: y' → t = u ∧ x = x' ∧ y = y'
  regH : ∀ t o c, τ.pc t = some (o, c) → c.Holds → ∀ i, Only τ (.reg i) t
  regU : ∀ t x y, τ.buf t = x ++ W.unlock :: y → ∀ i, Only τ (.reg i) t ∧ ¬ Pend y (.reg i)
  regF : τ.lock = 0 → ∀ i, Arrived τ (.reg i)
  regV : ∀ i, τ.mem (.reg i) = 0 ∨ τ.mem (.reg i) = τ.tab i
  regP : ∀ t i v, W.data (.reg i) v ∈ τ.buf t → v = τ.tab i ∧ v ≠ 0
  lt : ∀ i, τ.tab i < τ.nxt
  inj : ∀ i j, τ.tab i = τ.tab j → τ.tab i ≠ 0 → i = j
  entP : ∀ t r e v, W.data (.ent r e) v ∈ τ.buf t → r < τ.nxt
  entL : ∀ r e, τ.nxt ≤ r → τ.last (.ent r e) = 0
  knows : ∀ t o c, τ.pc t = some (o, c) → Knows τ t (o.key / N) c
  has : ∀ t o c, τ.pc t = some (o, c) → Has τ t o
  ent : ∀ k, τ.tab (k / N) ≠ 0 → ∃ t, Only τ (τ.cell k) t
  noT : ∀ k, τ.tab (k / N) = 0 → τ.std k = none
  val : ∀ k b id, τ.std k = some (b, id) → b ≠ 0 ∧ τ.last (τ.cell k) = b ∧ 0 < id ∧ id < τ.nid
  zero : ∀ k, τ.tab (k / N) ≠ 0 → τ.std k = none → (∀ t b c, τ.pc t ≠ some (.unset k b, c)) → τ.last (τ.cell k) = 0
  seen : ∀ t id, τ.seen t id → 0 < id ∧ id < τ.nid ∧
    ∀ k b, τ.std k = some (b, id) → Only τ (τ.cell k) t ∧ Sees τ t (k / N)
  sent : ∀ t x y c id, τ.buf t = x ++ W.send c id :: y → τ.seen t id ∧
    ∀ k b, τ.std k = some (b, id) → ¬ Pend y (τ.cell k) ∧ ¬ Pend y (.reg (k / N))
  box : ∀ c, τ.box c < τ.nid ∧ ∀ k b, τ.std k = some (b, τ.box c) → Arrived τ (τ.cell k) ∧ τ.mem (.reg (k / N)) = τ.tab (k / N)

theorem Inv.start : Inv start := by
  refine ⟨Nat.one_pos, Nat.one_pos, ?_, ?_, ?_, ?_, ?_, ?_, ?_, ?_, ?_, ?_, ?_, ?_, ?_, ?_, ?_, ?_, ?_, ?_, ?_, ?_, ?_⟩ <;>
    simp [RegionTso.start, T.tab, Arrived, Pend]

/-! ### Views -/

theorem view_snoc (b : List W) (m : Addr → Nat) (a : Addr) (v : Nat) : view (b ++ [W.data a v]) m = upd (view b m) a v := by
  simp [view]

theorem view_notPend {b : List W} {a : Addr} (h : ¬ Pend b a) (m : Addr → Nat) : view b m a = m a := by
  induction b generalizing m with
  | nil => rfl
  | cons w b ih =>
    have h' : ¬ Pend b a := fun ⟨v, hv⟩ => h ⟨v, List.mem_cons_of_mem _ hv⟩
    cases w with
    | data x v =>
      have hx : a ≠ x := by rintro rfl; exact h ⟨v, List.mem_cons_self⟩
      show view b (upd m x v) a = m a
      rw [ih h', upd_ne hx]
    | unlock => exact ih h' m
    | send c i => exact ih h' m

theorem view_mem {b : List W} {a : Addr} {m m' : Addr → Nat} (h : m a = m' a) : view b m a = view b m' a := by
  induction b generalizing m m' with
  | nil => exact h
  | cons w b ih =>
    cases w with
    | data x v =>
      refine ih (m := upd m x v) (m' := upd m' x v) ?_
      unfold upd; split
      · rfl
      · exact h
    | unlock => exact ih h
    | send c i => exact ih h

/-- The value read is in memory or in the buffer. -/
theorem view_cases (b : List W) (m : Addr → Nat) (a : Addr) : view b m a = m a ∨ W.data a (view b m a) ∈ b := by
  induction b generalizing m with
  | nil => exact Or.inl rfl
  | cons w b ih =>
    cases w with
    | data x v =>
      rcases ih (upd m x v) with h | h
      · by_cases e : a = x
        · subst e
          right
          have : view (W.data a v :: b) m a = v := by
            show view b (upd m a v) a = v
            rw [h, upd_same]
          rw [this]; exact List.mem_cons_self
        · left
          show view b (upd m x v) a = m a
          rw [h, upd_ne e]
      · exact Or.inr (List.mem_cons_of_mem _ h)
    | unlock =>
      rcases ih m with h | h
      · exact Or.inl h
      · exact Or.inr (List.mem_cons_of_mem _ h)
    | send c i =>
      rcases ih m with h | h
      · exact Or.inl h
      · exact Or.inr (List.mem_cons_of_mem _ h)

/-- If the buffer has a store into the address, the value read is in the buffer. -/
theorem view_pend {b : List W} {a : Addr} (h : Pend b a) (m : Addr → Nat) : W.data a (view b m a) ∈ b := by
  induction b generalizing m with
  | nil => obtain ⟨v, hv⟩ := h; cases hv
  | cons w b ih =>
    by_cases hb : Pend b a
    · cases w with
      | data x v => exact List.mem_cons_of_mem _ (ih hb (upd m x v))
      | unlock => exact List.mem_cons_of_mem _ (ih hb m)
      | send c i => exact List.mem_cons_of_mem _ (ih hb m)
    · obtain ⟨v, hv⟩ := h
      rcases List.mem_cons.1 hv with hv | hv
      · subst hv
        have : view (W.data a v :: b) m a = v := by
          show view b (upd m a v) a = v
          rw [view_notPend hb, upd_same]
        rw [this]; exact List.mem_cons_self
      · exact absurd ⟨v, hv⟩ hb

theorem readBox_cases (b : List W) (m : Nat → Nat) (c : Nat) : readBox b m c = m c ∨ W.send c (readBox b m c) ∈ b := by
  induction b generalizing m with
  | nil => exact Or.inl rfl
  | cons w b ih =>
    cases w with
    | send x v =>
      rcases ih (upd m x v) with h | h
      · by_cases e : c = x
        · subst e
          right
          have : readBox (W.send c v :: b) m c = v := by
            show readBox b (upd m c v) c = v
            rw [h, upd_same]
          rw [this]; exact List.mem_cons_self
        · left
          show readBox b (upd m x v) c = m c
          rw [h, upd_ne e]
      · exact Or.inr (List.mem_cons_of_mem _ h)
    | unlock =>
      rcases ih m with h | h
      · exact Or.inl h
      · exact Or.inr (List.mem_cons_of_mem _ h)
    | data c i =>
      rcases ih m with h | h
      · exact Or.inl h
      · exact Or.inr (List.mem_cons_of_mem _ h)

theorem Arrived.only {τ : T} {a : Addr} (h : Arrived τ a) (t : Nat) : Only τ a t :=
  ⟨fun u _ => h.1 u, by rw [view_notPend (h.1 t)]; exact h.2⟩

theorem Only.arrived {τ : T} {a : Addr} {t : Nat} (h : Only τ a t) (hp : ¬ Pend (τ.buf t) a) : Arrived τ a :=
  ⟨fun u => if e : u = t then e ▸ hp else h.1 u e, by rw [← h.2, view_notPend hp]⟩

/-- A thread reads no other table than the last one. -/
theorem Inv.reads {τ : T} (I : Inv τ) (t i : Nat) : τ.read t (.reg i) = 0 ∨ (τ.read t (.reg i) = τ.tab i ∧ Sees τ t i) := by
  unfold T.read
  by_cases hp : Pend (τ.buf t) (.reg i)
  · exact Or.inr ⟨(I.regP t i _ (view_pend hp τ.mem)).1, Or.inr hp⟩
  · rw [view_notPend hp]
    rcases I.regV i with h | h
    · exact Or.inl h
    · exact Or.inr ⟨h, Or.inl h⟩

/-- A thread that sees the table reads it. -/
theorem Inv.sees {τ : T} (I : Inv τ) {t i : Nat} (h : Sees τ t i) : τ.read t (.reg i) = τ.tab i := by
  unfold T.read
  by_cases hp : Pend (τ.buf t) (.reg i)
  · exact (I.regP t i _ (view_pend hp τ.mem)).1
  · rw [view_notPend hp]
    rcases h with h | h
    · exact h
    · exact absurd h hp

/-- Different entries are at different places. -/
theorem Inv.cells {τ : T} (I : Inv τ) {k k' : Nat} (h : τ.tab (k / N) ≠ 0) (he : τ.cell k = τ.cell k') : k = k' := by
  unfold T.cell at he
  injection he with h1 h2
  have := I.inj _ _ h1 h
  unfold N at *
  omega

theorem cell_ne_reg (τ : T) (k i : Nat) : τ.cell k ≠ .reg i := by
  unfold T.cell; exact fun h => by cases h

/-! ### Steps that store nothing -/

theorem upd_pc {pc : Nat → Option (Op × Stage)} {t u : Nat} {p : Option (Op × Stage)} {q : Op × Stage}
    (h : upd pc t p u = some q) : (u = t ∧ p = some q) ∨ (u ≠ t ∧ pc u = some q) := by
  by_cases e : u = t
  · subst e; rw [upd_same] at h; exact Or.inl ⟨rfl, h⟩
  · rw [upd_ne e] at h; exact Or.inr ⟨e, h⟩

/-- A step that changes only the place of `t`, and takes the lock. -/
theorem Inv.move {τ : T} (I : Inv τ) {t lk : Nat} {o : Op} {c : Stage} {p : Option (Op × Stage)}
    (hp : τ.pc t = some (o, c))
    (hk : (p = none ∧ ∀ k b, o ≠ .unset k b) ∨
      ∃ c', p = some (o, c') ∧ Knows τ t (o.key / N) c' ∧ (c'.Holds → c.Holds ∨ (τ.lock = 0 ∧ lk ≠ 0)))
    (hl : lk = τ.lock ∨ (τ.lock = 0 ∧ lk ≠ 0)) : Inv ({ τ with lock := lk }.go t p) := by
  have hop : ∀ u o1 c1, upd τ.pc t p u = some (o1, c1) → ∃ c0, τ.pc u = some (o1, c0) := by
    intro u o1 c1 h
    rcases upd_pc h with ⟨rfl, g⟩ | ⟨_, h⟩
    · rcases hk with ⟨h', _⟩ | ⟨c', h', _⟩
      · rw [h'] at g; cases g
      · rw [h'] at g; cases g; exact ⟨c, hp⟩
    · exact ⟨c1, h⟩
  have hold : ∀ u o1 c1, upd τ.pc t p u = some (o1, c1) → c1.Holds →
      (u = t ∧ τ.lock = 0 ∧ lk ≠ 0) ∨ ∃ c0, τ.pc u = some (o1, c0) ∧ c0.Holds := by
    intro u o1 c1 h hh
    rcases upd_pc h with ⟨rfl, g⟩ | ⟨_, h⟩
    · rcases hk with ⟨h', _⟩ | ⟨c', h', _, h2⟩
      · rw [h'] at g; cases g
      · rw [h'] at g; cases g
        rcases h2 hh with h2 | h2
        · exact Or.inr ⟨c, hp, h2⟩
        · exact Or.inl ⟨rfl, h2⟩
    · exact Or.inr ⟨c1, h, hh⟩
  have hlk : lk = 0 → τ.lock = 0 := by
    intro h
    rcases hl with h' | h'
    · rw [← h', h]
    · exact h'.1
  have lk0 : lk = 0 → ¬ (τ.lock = 0 ∧ lk ≠ 0) := fun h h' => h'.2 h
  refine ⟨I.pos, I.npos, ?_, ?_, I.uniq, ?_, I.regU, fun h => I.regF (hlk h), I.regV, I.regP, I.lt, I.inj, I.entP, I.entL, ?_, ?_,
    I.ent, I.noT, I.val, ?_, I.seen, I.sent, I.box⟩
  · intro h u
    refine ⟨fun o1 c1 h1 hh => ?_, (I.free (hlk h) u).2⟩
    rcases hold u o1 c1 h1 hh with ⟨_, h2⟩ | ⟨c0, h2, h3⟩
    · exact lk0 h h2
    · exact (I.free (hlk h) u).1 _ _ h2 h3
  · intro u o1 c1 h1 hh
    rcases hold u o1 c1 h1 hh with ⟨rfl, h2, _⟩ | ⟨c0, h2, h3⟩
    · refine ⟨fun v hv o2 c2 h3 h4 => ?_, fun v => (I.free h2 v).2⟩
      rcases hold v o2 c2 h3 h4 with ⟨h5, _⟩ | ⟨c0, h5, h6⟩
      · exact hv h5
      · exact (I.free h2 v).1 _ _ h5 h6
    · refine ⟨fun v hv o2 c2 h4 h5 => ?_, (I.one u o1 c0 h2 h3).2⟩
      rcases hold v o2 c2 h4 h5 with ⟨_, h6, _⟩ | ⟨c3, h6, h7⟩
      · exact (I.free h6 u).1 _ _ h2 h3
      · exact (I.one u o1 c0 h2 h3).1 v hv _ _ h6 h7
  · intro u o1 c1 h1 hh i
    rcases hold u o1 c1 h1 hh with ⟨_, h2, _⟩ | ⟨c0, h2, h3⟩
    · exact (I.regF h2 i).only u
    · exact I.regH u o1 c0 h2 h3 i
  · intro u o1 c1 h1
    rcases upd_pc h1 with ⟨rfl, h⟩ | ⟨_, h⟩
    · rcases hk with ⟨h', _⟩ | ⟨c', h', h2, _⟩
      · rw [h'] at h; cases h
      · rw [h'] at h; cases h
        cases c1 <;> exact h2
    · have := I.knows u o1 c1 h
      cases c1 <;> exact this
  · intro u o1 c1 h1
    obtain ⟨c0, h2⟩ := hop u o1 c1 h1
    have := I.has u o1 c0 h2
    cases o1 with
    | look k => trivial
    | set k b =>
      obtain ⟨g1, g2, g3, g4, g5⟩ := this
      refine ⟨g1, g2, g3, fun v b' c' h => ?_, fun v b' c' h => ?_⟩
      · obtain ⟨c3, h3⟩ := hop v _ c' h
        exact g4 v b' c3 h3
      · obtain ⟨c3, h3⟩ := hop v _ c' h
        exact g5 v b' c3 h3
    | unset k b =>
      obtain ⟨g1, g2, g3, g4, g5, g6⟩ := this
      refine ⟨g1, g2, g3, g4, g5, fun v b' c' h => ?_⟩
      obtain ⟨c3, h3⟩ := hop v _ c' h
      exact g6 v b' c3 h3
  · intro k h1 h2 h3
    refine I.zero k h1 h2 fun u b c1 h => ?_
    by_cases e : u = t
    · subst e
      rw [hp] at h
      cases h
      rcases hk with ⟨_, h'⟩ | ⟨c', h', _⟩
      · exact h' k b rfl
      · refine h3 u b c' ?_
        show upd τ.pc u p u = _
        rw [upd_same, h']
    · refine h3 u b c1 ?_
      show upd τ.pc t p u = _
      rw [upd_ne e]; exact h

theorem Inv.get {τ : T} (I : Inv τ) {t : Nat} {o : Op} (hp : τ.pc t = some (o, .get)) :
    Inv (τ.go t (some (o, if τ.read t (.reg (o.key / N)) = 0 then .acquire else .use (τ.read t (.reg (o.key / N)))))) := by
  refine I.move (lk := τ.lock) hp (Or.inr ⟨_, rfl, ?_, ?_⟩) (Or.inl rfl)
  · split
    · trivial
    · rename_i h
      rcases I.reads t (o.key / N) with h' | ⟨h', h''⟩
      · exact absurd h' h
      · exact ⟨h', h, h''⟩
  · split <;> exact fun h => h.elim

theorem Inv.acquire {τ : T} (I : Inv τ) {t : Nat} {o : Op} (hp : τ.pc t = some (o, .acquire)) (hl : τ.lock = 0) :
    Inv ({ τ with lock := 1 }.go t (some (o, .check))) :=
  I.move hp (Or.inr ⟨_, rfl, trivial, fun _ => Or.inr ⟨hl, by decide⟩⟩) (Or.inr ⟨hl, by decide⟩)

theorem Inv.check {τ : T} (I : Inv τ) {t : Nat} {o : Op} (hp : τ.pc t = some (o, .check)) :
    Inv (τ.go t (some (o, if τ.read t (.reg (o.key / N)) = 0 then .map else .unlock (τ.read t (.reg (o.key / N)))))) := by
  have hr : τ.read t (.reg (o.key / N)) = τ.tab (o.key / N) := (I.regH t o _ hp trivial _).2
  refine I.move (lk := τ.lock) hp (Or.inr ⟨_, rfl, ?_, fun _ => Or.inl trivial⟩) (Or.inl rfl)
  split
  · rename_i h; exact hr.symm.trans h
  · rename_i h
    rcases I.reads t (o.key / N) with h' | ⟨h', h''⟩
    · exact absurd h' h
    · exact ⟨h', h, h''⟩

theorem Inv.look {τ : T} (I : Inv τ) {t k r : Nat} (hp : τ.pc t = some (.look k, .use r)) : Inv (τ.go t none) :=
  I.move (lk := τ.lock) hp (Or.inl ⟨rfl, fun k b h => by cases h⟩) (Or.inl rfl)

/-- A call begins. -/
theorem Inv.call {τ : T} (I : Inv τ) {t : Nat} {o : Op} (hp : τ.pc t = none) (hm : τ.May t o) :
    Inv ((τ.begin o).go t (some (o, .get))) := by
  obtain ⟨e1, e2, e3, e4, e5, e6, e7, e8⟩ : (τ.begin o).lock = τ.lock ∧ (τ.begin o).mem = τ.mem ∧ (τ.begin o).box = τ.box ∧
      (τ.begin o).buf = τ.buf ∧ (τ.begin o).nxt = τ.nxt ∧ (τ.begin o).last = τ.last ∧ (τ.begin o).nid = τ.nid ∧
      (τ.begin o).seen = τ.seen := by cases o <;> exact ⟨rfl, rfl, rfl, rfl, rfl, rfl, rfl, rfl⟩
  have ep : (τ.begin o).pc = τ.pc := by cases o <;> rfl
  have es : ∀ k q, (τ.begin o).std k = some q → τ.std k = some q := by
    intro k q h
    cases o with
    | unset k' b =>
      by_cases e : k = k'
      · subst e
        rw [show (τ.begin (.unset k b)).std k = none from upd_same _ _ _] at h; cases h
      · rwa [show (τ.begin (.unset k' b)).std k = τ.std k from upd_ne e] at h
    | set _ _ => exact h
    | look _ => exact h
  have en : ∀ k, τ.std k = none → (τ.begin o).std k = none := by
    intro k h
    cases hs : (τ.begin o).std k with
    | none => rfl
    | some q => rw [es k q hs] at h; cases h
  have eo : ∀ k b, o = .unset k b → (τ.begin o).std k = none := by
    rintro k b rfl; exact upd_same _ _ _
  have ez : ∀ k, (∀ b, o ≠ .unset k b) → (τ.begin o).std k = τ.std k := by
    intro k h
    cases o with
    | unset k' b =>
      refine upd_ne ?_
      rintro rfl; exact h b rfl
    | set _ _ => rfl
    | look _ => rfl
  generalize eτ : ((τ.begin o).go t (some (o, .get))) = τ'
  have e1' : τ'.lock = τ.lock := by rw [← eτ]; exact e1
  have e2' : τ'.mem = τ.mem := by rw [← eτ]; exact e2
  have e3' : τ'.box = τ.box := by rw [← eτ]; exact e3
  have e4' : τ'.buf = τ.buf := by rw [← eτ]; exact e4
  have e5' : τ'.nxt = τ.nxt := by rw [← eτ]; exact e5
  have e6' : τ'.last = τ.last := by rw [← eτ]; exact e6
  have e7' : τ'.nid = τ.nid := by rw [← eτ]; exact e7
  have e8' : τ'.seen = τ.seen := by rw [← eτ]; exact e8
  have ep' : τ'.pc = upd τ.pc t (some (o, .get)) := by
    rw [← eτ]; show upd (τ.begin o).pc t _ = _; rw [ep]
  have es' : τ'.std = (τ.begin o).std := by rw [← eτ]; rfl
  clear eτ e1 e2 e3 e4 e5 e6 e7 e8 ep
  have tab : ∀ i, τ'.tab i = τ.tab i := fun i => by unfold T.tab; rw [e6']
  have cell : ∀ k, τ'.cell k = τ.cell k := fun k => by unfold T.cell; rw [tab]
  have only : ∀ a u, Only τ' a u ↔ Only τ a u := fun a u => by unfold Only; rw [e4', e2', e6']
  have arr : ∀ a, Arrived τ' a ↔ Arrived τ a := fun a => by unfold Arrived; rw [e4', e2', e6']
  have sees : ∀ u i, Sees τ' u i ↔ Sees τ u i := fun u i => by unfold Sees; rw [e4', e2', tab]
  have pcs : ∀ u o1 c1, τ'.pc u = some (o1, c1) → (u = t ∧ o1 = o ∧ c1 = .get) ∨ (u ≠ t ∧ τ.pc u = some (o1, c1)) := by
    intro u o1 c1 h
    rw [ep'] at h
    rcases upd_pc h with ⟨rfl, g⟩ | ⟨hne, h⟩
    · cases g; exact Or.inl ⟨rfl, rfl, rfl⟩
    · exact Or.inr ⟨hne, h⟩
  refine ⟨by rw [e5']; exact I.pos, by rw [e7']; exact I.npos, ?_, ?_, by rw [e4']; exact I.uniq, ?_, ?_, ?_, ?_, ?_, ?_, ?_, ?_, ?_,
    ?_, ?_, ?_, ?_, ?_, ?_, ?_, ?_, ?_⟩
  · intro h u
    rw [e1'] at h
    rw [e4']
    refine ⟨fun o1 c1 h1 hh => ?_, (I.free h u).2⟩
    rcases pcs u o1 c1 h1 with ⟨_, _, rfl⟩ | ⟨_, h1⟩
    · exact hh
    · exact (I.free h u).1 _ _ h1 hh
  · intro u o1 c1 h1 hh
    rcases pcs u o1 c1 h1 with ⟨_, _, rfl⟩ | ⟨_, h1⟩
    · exact hh.elim
    · rw [e4']
      refine ⟨fun v hv o2 c2 h2 hh2 => ?_, (I.one u o1 c1 h1 hh).2⟩
      rcases pcs v o2 c2 h2 with ⟨_, _, rfl⟩ | ⟨_, h2⟩
      · exact hh2
      · exact (I.one u o1 c1 h1 hh).1 v hv _ _ h2 hh2
  · intro u o1 c1 h1 hh i
    rcases pcs u o1 c1 h1 with ⟨_, _, rfl⟩ | ⟨_, h1⟩
    · exact hh.elim
    · exact (only _ _).2 (I.regH u o1 c1 h1 hh i)
  · intro u x y h i
    rw [e4'] at h
    exact ⟨(only _ _).2 (I.regU u x y h i).1, (I.regU u x y h i).2⟩
  · intro h i
    rw [e1'] at h
    exact (arr _).2 (I.regF h i)
  · intro i; rw [e2', tab]; exact I.regV i
  · intro u i v h; rw [e4'] at h; rw [tab]; exact I.regP u i v h
  · intro i; rw [tab, e5']; exact I.lt i
  · intro i j; rw [tab, tab]; exact I.inj i j
  · intro u r e v h; rw [e4'] at h; rw [e5']; exact I.entP u r e v h
  · intro r e h; rw [e5'] at h; rw [e6']; exact I.entL r e h
  · intro u o1 c1 h1
    rcases pcs u o1 c1 h1 with ⟨_, _, rfl⟩ | ⟨_, h1⟩
    · trivial
    · have := I.knows u o1 c1 h1
      cases c1 with
      | publish r =>
        obtain ⟨g1, g2, g3, g4, g5⟩ := this
        exact ⟨by rw [tab]; exact g1, g2, by rw [e5']; exact g3, fun j => by rw [tab]; exact g4 j,
          fun e => ⟨(arr _).2 (g5 e).1, by rw [e6']; exact (g5 e).2⟩⟩
      | unlock r => exact ⟨by rw [tab]; exact this.1, this.2.1, (sees _ _).2 this.2.2⟩
      | use r => exact ⟨by rw [tab]; exact this.1, this.2.1, (sees _ _).2 this.2.2⟩
      | map => show τ'.tab _ = 0; rw [tab]; exact this
      | get => trivial
      | acquire => trivial
      | check => trivial
  · intro u o1 c1 h1
    rcases pcs u o1 c1 h1 with ⟨rfl, rfl, rfl⟩ | ⟨hne, h1⟩
    · cases o1 with
      | look k => trivial
      | set k b =>
        obtain ⟨m1, m2, m3, m4⟩ := hm
        refine ⟨m1, by rw [es']; exact m2, fun h => ?_, fun v b' c' h => ?_, fun v b' c' h => ?_⟩
        · rw [tab] at h
          rw [cell]
          refine (only _ _).2 ?_
          obtain ⟨w, hw⟩ := I.ent k h
          by_cases e : w = u
          · subst e; exact hw
          · exact (hw.arrived (m4 w e)).only u
        · rcases pcs v _ _ h with ⟨_, h', _⟩ | ⟨_, h'⟩
          · cases h'
          · exact (m3 v b' c').2 h'
        · rcases pcs v _ _ h with ⟨h', _, _⟩ | ⟨_, h'⟩
          · exact h'
          · exact absurd h' (m3 v b' c').1
      | unset k b =>
        obtain ⟨id, m1, m2⟩ := hm
        obtain ⟨v1, v2, v3, v4⟩ := I.val k b id m1
        refine ⟨v1, by rw [es']; exact eo k b rfl, fun h => ?_, ?_, ?_, fun v b' c' h => ?_⟩
        · rw [tab] at h
          rw [I.noT k h] at m1; cases m1
        · rw [cell]; exact (only _ _).2 ((I.seen u id m2).2.2 k b m1).1
        · rw [cell, e6']; exact v2
        · rcases pcs v _ _ h with ⟨h', _, _⟩ | ⟨_, h'⟩
          · exact h'
          · have := (I.has v _ _ h').2.1
            rw [this] at m1; cases m1
    · have := I.has u o1 c1 h1
      cases o1 with
      | look k => trivial
      | set k b =>
        obtain ⟨g1, g2, g3, g4, g5⟩ := this
        refine ⟨g1, by rw [es']; exact en k g2, fun h => ?_, fun v b' c' h => ?_, fun v b' c' h => ?_⟩
        · rw [tab] at h
          rw [cell]; exact (only _ _).2 (g3 h)
        · rcases pcs v _ _ h with ⟨_, h', _⟩ | ⟨_, h'⟩
          · subst h'
            obtain ⟨id, m1, m2⟩ := hm
            rw [g2] at m1; cases m1
          · exact g4 v b' c' h'
        · rcases pcs v _ _ h with ⟨_, h', _⟩ | ⟨_, h'⟩
          · subst h'
            exact absurd h1 (hm.2.2.1 u b c1).1
          · exact g5 v b' c' h'
      | unset k b =>
        obtain ⟨g1, g2, g3, g4, g5, g6⟩ := this
        refine ⟨g1, by rw [es']; exact en k g2, by rw [tab]; exact g3, by rw [cell]; exact (only _ _).2 g4,
          by rw [cell, e6']; exact g5, fun v b' c' h => ?_⟩
        rcases pcs v _ _ h with ⟨_, h', _⟩ | ⟨_, h'⟩
        · subst h'
          obtain ⟨id, m1, m2⟩ := hm
          rw [g2] at m1; cases m1
        · exact g6 v b' c' h'
  · intro k h
    rw [tab] at h
    obtain ⟨w, hw⟩ := I.ent k h
    exact ⟨w, by rw [cell]; exact (only _ _).2 hw⟩
  · intro k h
    rw [tab] at h
    rw [es']; exact en k (I.noT k h)
  · intro k b id h
    rw [es'] at h
    rw [cell, e6', e7']
    exact I.val k b id (es k _ h)
  · intro k h1 h2 h3
    rw [tab] at h1
    rw [cell, e6']
    have ho : ∀ b, o ≠ .unset k b := by
      rintro b rfl
      exact h3 t b .get (by rw [ep', upd_same])
    refine I.zero k h1 (by rw [← ez k ho, ← es']; exact h2) fun u b c h => ?_
    by_cases e : u = t
    · subst e; rw [hp] at h; cases h
    · exact h3 u b c (by rw [ep', upd_ne e]; exact h)
  · intro u id h
    rw [e8'] at h
    obtain ⟨g1, g2, g3⟩ := I.seen u id h
    refine ⟨g1, by rw [e7']; exact g2, fun k b hk => ?_⟩
    rw [es'] at hk
    rw [cell]
    exact ⟨(only _ _).2 (g3 k b (es k _ hk)).1, (sees _ _).2 (g3 k b (es k _ hk)).2⟩
  · intro u x y c id h
    rw [e4'] at h
    rw [e8']
    refine ⟨(I.sent u x y c id h).1, fun k b hk => ?_⟩
    rw [es'] at hk
    rw [cell]
    exact (I.sent u x y c id h).2 k b (es k _ hk)
  · intro c
    rw [e3', e7', e2']
    refine ⟨(I.box c).1, fun k b hk => ?_⟩
    rw [es'] at hk
    rw [cell, tab]
    exact ⟨(arr _).2 ((I.box c).2 k b (es k _ hk)).1, ((I.box c).2 k b (es k _ hk)).2⟩

/-! ### Stores -/

theorem snoc_split {b x y : List W} {w0 w : W} (h : b ++ [w0] = x ++ w :: y) :
    (y = [] ∧ w = w0 ∧ x = b) ∨ ∃ y', y = y' ++ [w0] ∧ b = x ++ w :: y' := by
  rcases List.eq_nil_or_concat y with rfl | ⟨y', z, rfl⟩
  · obtain ⟨h1, h2⟩ := List.append_inj' h rfl
    cases h2
    exact Or.inl ⟨rfl, rfl, h1.symm⟩
  · rw [List.concat_eq_append, ← List.cons_append, ← List.append_assoc] at h
    obtain ⟨h1, h2⟩ := List.append_inj' h rfl
    cases h2
    exact Or.inr ⟨y', by simp, h1⟩

section push
variable {τ τ' : T} {t : Nat} {w : W}

theorem push_mem (hb : τ'.buf = upd τ.buf t (τ.buf t ++ [w])) {u : Nat} {z : W} :
    z ∈ τ'.buf u ↔ z ∈ τ.buf u ∨ (u = t ∧ z = w) := by
  rw [hb]; unfold upd; split
  · subst_vars; simp
  · rename_i h; simp [h]

theorem push_pend (hb : τ'.buf = upd τ.buf t (τ.buf t ++ [w])) {u : Nat} {a : Addr} :
    Pend (τ'.buf u) a ↔ Pend (τ.buf u) a ∨ (u = t ∧ ∃ v, w = .data a v) := by
  unfold Pend
  constructor
  · rintro ⟨v, hv⟩
    rcases (push_mem hb).1 hv with h | ⟨h1, h2⟩
    · exact Or.inl ⟨v, h⟩
    · exact Or.inr ⟨h1, v, h2.symm⟩
  · rintro (⟨v, h⟩ | ⟨h1, v, h2⟩)
    · exact ⟨v, (push_mem hb).2 (Or.inl h)⟩
    · exact ⟨v, (push_mem hb).2 (Or.inr ⟨h1, h2.symm⟩)⟩

/-- A token in a buffer after a store was there before, or is the store. -/
theorem push_split (hb : τ'.buf = upd τ.buf t (τ.buf t ++ [w])) {u : Nat} {x y : List W} {z : W} (h : τ'.buf u = x ++ z :: y) :
    (u = t ∧ y = [] ∧ z = w ∧ x = τ.buf t) ∨
    ∃ y', τ.buf u = x ++ z :: y' ∧ (y = y' ∧ u ≠ t ∨ u = t ∧ y = y' ++ [w]) := by
  rw [hb] at h
  by_cases e : u = t
  · subst e
    rw [upd_same] at h
    rcases snoc_split h with ⟨h1, h2, h3⟩ | ⟨y', h1, h2⟩
    · exact Or.inl ⟨rfl, h1, h2, h3⟩
    · exact Or.inr ⟨y', h2, Or.inr ⟨rfl, h1⟩⟩
  · rw [upd_ne e] at h
    exact Or.inr ⟨y, h, Or.inl ⟨rfl, e⟩⟩

theorem pend_snoc {y : List W} {a : Addr} (h : ¬ Pend y a) (hw : ∀ v, w ≠ .data a v) : ¬ Pend (y ++ [w]) a := by
  rintro ⟨v, hv⟩
  rcases List.mem_append.1 hv with hv | hv
  · exact h ⟨v, hv⟩
  · exact hw v (List.mem_singleton.1 hv).symm

theorem push_view (hb : τ'.buf = upd τ.buf t (τ.buf t ++ [w])) (hm : τ'.mem = τ.mem) {u : Nat} {a : Addr}
    (hw : u = t → ∀ v, w ≠ .data a v) : view (τ'.buf u) τ'.mem a = view (τ.buf u) τ.mem a := by
  rw [hb, hm]
  by_cases e : u = t
  · subst e
    rw [upd_same]
    cases w with
    | data x v =>
      rw [view_snoc, upd_ne]
      rintro rfl; exact hw rfl v rfl
    | unlock => simp [view]
    | send c i => simp [view]
  · rw [upd_ne e]

theorem Only.push (hb : τ'.buf = upd τ.buf t (τ.buf t ++ [w])) (hm : τ'.mem = τ.mem) {a : Addr} (hl : τ'.last a = τ.last a)
    (hw : ∀ v, w ≠ .data a v) {u : Nat} (h : Only τ a u) : Only τ' a u := by
  refine ⟨fun v hv hp => ?_, by rw [push_view hb hm fun _ => hw, hl]; exact h.2⟩
  rcases (push_pend hb).1 hp with hp | ⟨_, v', hp⟩
  · exact h.1 v hv hp
  · exact hw v' hp

theorem Arrived.push (hb : τ'.buf = upd τ.buf t (τ.buf t ++ [w])) (hm : τ'.mem = τ.mem) {a : Addr} (hl : τ'.last a = τ.last a)
    (hw : ∀ v, w ≠ .data a v) (h : Arrived τ a) : Arrived τ' a := by
  refine ⟨fun v hp => ?_, by rw [hm, hl]; exact h.2⟩
  rcases (push_pend hb).1 hp with hp | ⟨_, v', hp⟩
  · exact h.1 v hp
  · exact hw v' hp

/-- A store into an address that only the thread uses. -/
theorem Only.pushSelf {a : Addr} {v : Nat} (hb : τ'.buf = upd τ.buf t (τ.buf t ++ [.data a v]))
    (hl : τ'.last a = v) (h : ∀ u, u ≠ t → ¬ Pend (τ.buf u) a) : Only τ' a t := by
  refine ⟨fun u hu hp => ?_, ?_⟩
  · rcases (push_pend hb).1 hp with hp | ⟨hp, _⟩
    · exact h u hu hp
    · exact hu hp
  · rw [hb, upd_same, view_snoc, upd_same, hl]

/-- The store of an unlock or of a pointer for another thread. -/
theorem Inv.token (I : Inv τ) (hb : τ'.buf = upd τ.buf t (τ.buf t ++ [w])) (hm : τ'.mem = τ.mem) (hl : τ'.last = τ.last)
    (hlk : τ'.lock = τ.lock) (hbx : τ'.box = τ.box) (hnx : τ'.nxt = τ.nxt) (hst : τ'.std = τ.std) (hni : τ'.nid = τ.nid)
    (hse : τ'.seen = τ.seen) (hw : ∀ a v, w ≠ .data a v)
    (hpc : ∀ u o c, τ'.pc u = some (o, c) → ∃ c0, τ.pc u = some (o, c0) ∧ (c.Holds → c0.Holds) ∧
      (Knows τ u (o.key / N) c0 → Knows τ u (o.key / N) c))
    (hpu : ∀ u k b c, τ.pc u = some (.unset k b, c) → ∃ c', τ'.pc u = some (.unset k b, c'))
    (hul : w = .unlock → τ.lock ≠ 0 ∧ (∀ u, W.unlock ∉ τ.buf u) ∧ (∀ u o c, τ'.pc u = some (o, c) → ¬ c.Holds) ∧
      ∀ i, Only τ (.reg i) t)
    (hsd : ∀ c id, w = .send c id → τ.seen t id) : Inv τ' := by
  have tab : ∀ i, τ'.tab i = τ.tab i := fun i => by unfold T.tab; rw [hl]
  have cell : ∀ k, τ'.cell k = τ.cell k := fun k => by unfold T.cell; rw [tab]
  have only : ∀ {a u}, Only τ a u → Only τ' a u := fun h => h.push hb hm (by rw [hl]) (hw _)
  have arr : ∀ {a}, Arrived τ a → Arrived τ' a := fun h => h.push hb hm (by rw [hl]) (hw _)
  have sees : ∀ {u i}, Sees τ u i → Sees τ' u i := by
    intro u i h
    unfold Sees
    rw [hm, tab]
    rcases h with h | h
    · exact Or.inl h
    · exact Or.inr ((push_pend hb).2 (Or.inl h))
  have dat : ∀ {u a v}, W.data a v ∈ τ'.buf u → W.data a v ∈ τ.buf u := by
    intro u a v h
    rcases (push_mem hb).1 h with h | ⟨_, h⟩
    · exact h
    · exact absurd h.symm (hw a v)
  refine ⟨by rw [hnx]; exact I.pos, by rw [hni]; exact I.npos, ?_, ?_, ?_, ?_, ?_, ?_, ?_, ?_, ?_, ?_, ?_, ?_,
    ?_, ?_, ?_, ?_, ?_, ?_, ?_, ?_, ?_⟩
  · intro h u
    rw [hlk] at h
    refine ⟨fun o c h1 hh => ?_, fun h1 => ?_⟩
    · obtain ⟨c0, h2, h3, _⟩ := hpc u o c h1
      exact (I.free h u).1 _ _ h2 (h3 hh)
    · rcases (push_mem hb).1 h1 with h1 | ⟨_, h1⟩
      · exact (I.free h u).2 h1
      · exact (hul h1.symm).1 h
  · intro u o c h1 hh
    obtain ⟨c0, h2, h3, _⟩ := hpc u o c h1
    refine ⟨fun v hv o' c' h4 h5 => ?_, fun v h4 => ?_⟩
    · obtain ⟨c1, h6, h7, _⟩ := hpc v o' c' h4
      exact (I.one u o c0 h2 (h3 hh)).1 v hv _ _ h6 (h7 h5)
    · rcases (push_mem hb).1 h4 with h4 | ⟨_, h4⟩
      · exact (I.one u o c0 h2 (h3 hh)).2 v h4
      · exact (hul h4.symm).2.2.1 u o c h1 hh
  · intro u v x y x' y' h1 h2
    have inn : ∀ {v x y}, τ.buf v = x ++ W.unlock :: y → W.unlock ∈ τ.buf v := by intro v x y h; rw [h]; simp
    rcases push_split hb h1 with ⟨rfl, rfl, h3, rfl⟩ | ⟨y1, h3, h4⟩ <;>
      rcases push_split hb h2 with ⟨rfl, rfl, h5, rfl⟩ | ⟨y2, h5, h6⟩
    · exact ⟨rfl, rfl, rfl⟩
    · exact absurd (inn h5) ((hul h3.symm).2.1 _)
    · exact absurd (inn h3) ((hul h5.symm).2.1 _)
    · obtain ⟨rfl, rfl, rfl⟩ := I.uniq _ _ _ _ _ _ h3 h5
      refine ⟨rfl, rfl, ?_⟩
      rcases h4 with ⟨h4, h7⟩ | ⟨h7, h4⟩ <;> rcases h6 with ⟨h6, h8⟩ | ⟨h8, h6⟩
      · rw [h4, h6]
      · exact absurd h8 h7
      · exact absurd h7 h8
      · rw [h4, h6]
  · intro u o c h1 hh i
    obtain ⟨c0, h2, h3, _⟩ := hpc u o c h1
    exact only (I.regH u o c0 h2 (h3 hh) i)
  · intro u x y h i
    rcases push_split hb h with ⟨rfl, rfl, h3, rfl⟩ | ⟨y1, h3, h4⟩
    · exact ⟨only ((hul h3.symm).2.2.2 i), fun ⟨v, hv⟩ => by cases hv⟩
    · refine ⟨only (I.regU u x y1 h3 i).1, ?_⟩
      rcases h4 with ⟨rfl, _⟩ | ⟨_, rfl⟩
      · exact (I.regU u x _ h3 i).2
      · exact pend_snoc (I.regU u x y1 h3 i).2 (hw _)
  · intro h i
    rw [hlk] at h
    exact arr (I.regF h i)
  · intro i; rw [hm, tab]; exact I.regV i
  · intro u i v h; rw [tab]; exact I.regP u i v (dat h)
  · intro i; rw [tab, hnx]; exact I.lt i
  · intro i j; rw [tab, tab]; exact I.inj i j
  · intro u r e v h; rw [hnx]; exact I.entP u r e v (dat h)
  · intro r e h; rw [hnx] at h; rw [hl]; exact I.entL r e h
  · intro u o c h1
    obtain ⟨c0, h2, _, h3⟩ := hpc u o c h1
    have := h3 (I.knows u o c0 h2)
    cases c with
    | publish r =>
      obtain ⟨g1, g2, g3, g4, g5⟩ := this
      exact ⟨by rw [tab]; exact g1, g2, by rw [hnx]; exact g3, fun j => by rw [tab]; exact g4 j,
        fun e => ⟨arr (g5 e).1, by rw [hl]; exact (g5 e).2⟩⟩
    | unlock r => exact ⟨by rw [tab]; exact this.1, this.2.1, sees this.2.2⟩
    | use r => exact ⟨by rw [tab]; exact this.1, this.2.1, sees this.2.2⟩
    | map => show τ'.tab _ = 0; rw [tab]; exact this
    | get => trivial
    | acquire => trivial
    | check => trivial
  · intro u o c h1
    obtain ⟨c0, h2, _, _⟩ := hpc u o c h1
    have := I.has u o c0 h2
    cases o with
    | look k => trivial
    | set k b =>
      obtain ⟨g1, g2, g3, g4, g5⟩ := this
      refine ⟨g1, by rw [hst]; exact g2, fun h => ?_, fun v b' c' h => ?_, fun v b' c' h => ?_⟩
      · rw [tab] at h
        rw [cell]; exact only (g3 h)
      · obtain ⟨c3, h3, _⟩ := hpc v _ c' h
        exact g4 v b' c3 h3
      · obtain ⟨c3, h3, _⟩ := hpc v _ c' h
        exact g5 v b' c3 h3
    | unset k b =>
      obtain ⟨g1, g2, g3, g4, g5, g6⟩ := this
      refine ⟨g1, by rw [hst]; exact g2, by rw [tab]; exact g3, by rw [cell]; exact only g4,
          by rw [cell, hl]; exact g5, fun v b' c' h => ?_⟩
      obtain ⟨c3, h3, _⟩ := hpc v _ c' h
      exact g6 v b' c3 h3
  · intro k h
    rw [tab] at h
    obtain ⟨v, hv⟩ := I.ent k h
    exact ⟨v, by rw [cell]; exact only hv⟩
  · intro k h
    rw [tab] at h
    rw [hst]; exact I.noT k h
  · intro k b id h
    rw [hst] at h
    rw [cell, hl, hni]; exact I.val k b id h
  · intro k h1 h2 h3
    rw [tab] at h1
    rw [hst] at h2
    rw [cell, hl]
    refine I.zero k h1 h2 fun u b c h => ?_
    obtain ⟨c', h'⟩ := hpu u k b c h
    exact h3 u b c' h'
  · intro u id h
    rw [hse] at h
    obtain ⟨g1, g2, g3⟩ := I.seen u id h
    refine ⟨g1, by rw [hni]; exact g2, fun k b hk => ?_⟩
    rw [hst] at hk
    rw [cell]
    exact ⟨only (g3 k b hk).1, sees (g3 k b hk).2⟩
  · intro u x y c id h
    rw [hse, hst]
    rcases push_split hb h with ⟨rfl, rfl, h3, rfl⟩ | ⟨y1, h3, h4⟩
    · exact ⟨hsd c id h3.symm, fun k b _ => ⟨fun ⟨v, hv⟩ => (by cases hv), fun ⟨v, hv⟩ => (by cases hv)⟩⟩
    · refine ⟨(I.sent u x y1 c id h3).1, fun k b hk => ?_⟩
      obtain ⟨g1, g2⟩ := (I.sent u x y1 c id h3).2 k b hk
      rw [cell]
      rcases h4 with ⟨rfl, _⟩ | ⟨_, rfl⟩
      · exact ⟨g1, g2⟩
      · exact ⟨pend_snoc g1 (hw _), pend_snoc g2 (hw _)⟩
  · intro c
    rw [hbx, hni, hm, hst]
    refine ⟨(I.box c).1, fun k b hk => ?_⟩
    rw [cell, tab]
    exact ⟨arr ((I.box c).2 k b hk).1, ((I.box c).2 k b hk).2⟩

end push

theorem Inv.unlock {τ : T} (I : Inv τ) {t : Nat} {o : Op} {r : Nat} (hp : τ.pc t = some (o, .unlock r)) :
    Inv ((τ.push t .unlock).go t (some (o, .use r))) := by
  have hne : ∀ a v, W.unlock ≠ .data a v := fun a v h => by cases h
  refine I.token (τ' := (τ.push t .unlock).go t (some (o, .use r))) (w := .unlock) (t := t) rfl rfl rfl rfl rfl rfl rfl rfl rfl hne ?_ ?_ ?_ ?_
  · intro u o1 c1 h
    rcases upd_pc h with ⟨rfl, g⟩ | ⟨_, g⟩
    · cases g
      exact ⟨_, hp, fun h => h.elim, id⟩
    · exact ⟨c1, g, id, id⟩
  · intro u k b c h
    by_cases e : u = t
    · subst e
      rw [hp] at h; cases h
      exact ⟨_, upd_same _ _ _⟩
    · exact ⟨c, by rw [← h]; exact upd_ne e⟩
  · intro _
    refine ⟨fun h => ?_, (I.one t o _ hp trivial).2, ?_, I.regH t o _ hp trivial⟩
    · exact (I.free h t).1 _ _ hp trivial
    · intro u o1 c1 h hh
      rcases upd_pc h with ⟨rfl, g⟩ | ⟨hu, g⟩
      · cases g; exact hh
      · exact (I.one t o _ hp trivial).1 u hu _ _ g hh
  · intro c id h; cases h

theorem Inv.send {τ : T} (I : Inv τ) {t c id : Nat} (hs : τ.seen t id) : Inv (τ.push t (.send c id)) := by
  refine I.token (τ' := τ.push t (.send c id)) (w := .send c id) (t := t) rfl rfl rfl rfl rfl rfl rfl rfl rfl
    (fun a v h => by cases h) ?_ ?_ ?_ ?_
  · exact fun u o1 c1 h => ⟨c1, h, fun x => x, fun x => x⟩
  · exact fun u k b c h => ⟨c, h⟩
  · intro h; cases h
  · intro c' id' h; cases h; exact hs

theorem Inv.recv {τ : T} (I : Inv τ) {t c : Nat} (hne : readBox (τ.buf t) τ.box c ≠ 0) :
    Inv { τ with seen := fun u i => (u = t ∧ i = readBox (τ.buf t) τ.box c) ∨ τ.seen u i } := by
  refine ⟨I.pos, I.npos, I.free, I.one, I.uniq, I.regH, I.regU, I.regF, I.regV, I.regP, I.lt, I.inj, I.entP, I.entL, ?_, ?_,
    I.ent, I.noT, I.val, I.zero, ?_, ?_, I.box⟩
  · intro u o c1 h
    have := I.knows u o c1 h
    cases c1 <;> exact this
  · intro u o c1 h
    have := I.has u o c1 h
    cases o <;> exact this
  · rintro u id (⟨rfl, rfl⟩ | h)
    · rcases readBox_cases (τ.buf u) τ.box c with h | h
      · obtain ⟨g1, g2⟩ := I.box c
        rw [h] at hne ⊢
        exact ⟨Nat.pos_of_ne_zero hne, g1, fun k b hk => ⟨(g2 k b hk).1.only u, Or.inl (g2 k b hk).2⟩⟩
      · obtain ⟨x, y, hx⟩ := List.append_of_mem h
        exact I.seen u _ (I.sent u x y c _ hx).1
    · exact I.seen u id h
  · intro u x y c1 id h
    exact ⟨Or.inr (I.sent u x y c1 id h).1, (I.sent u x y c1 id h).2⟩

/-- The store of an entry, which ends the call. -/
theorem Inv.entry {τ τ' : T} (I : Inv τ) {t k b v r : Nat} {o : Op} (ho : o = .set k b ∨ o = .unset k b)
    (hp : τ.pc t = some (o, .use r))
    (hb : τ'.buf = upd τ.buf t (τ.buf t ++ [.data (τ.cell k) v])) (hm : τ'.mem = τ.mem)
    (hl : τ'.last = upd τ.last (τ.cell k) v) (hlk : τ'.lock = τ.lock) (hbx : τ'.box = τ.box) (hnx : τ'.nxt = τ.nxt)
    (hpc : τ'.pc = upd τ.pc t none) (hni : τ.nid ≤ τ'.nid)
    (hs1 : ∀ k' b id, τ'.std k' = some (b, id) →
      τ.std k' = some (b, id) ∨ (k' = k ∧ b = v ∧ id = τ.nid ∧ v ≠ 0 ∧ τ.nid < τ'.nid))
    (hs2 : ∀ k', k' ≠ k → τ'.std k' = τ.std k') (hs3 : τ'.std k = none → v = 0)
    (hse : ∀ u id, τ'.seen u id → τ.seen u id ∨ (u = t ∧ id = τ.nid ∧ τ.nid < τ'.nid))
    (hse' : ∀ u id, τ.seen u id → τ'.seen u id) : Inv τ' := by
  obtain ⟨hr, hr0, hsee⟩ := I.knows t o _ hp
  have hkey : o.key = k := by rcases ho with rfl | rfl <;> rfl
  rw [hkey] at hr hsee
  have ht0 : τ.tab (k / N) ≠ 0 := by rw [← hr]; exact hr0
  obtain ⟨hstd, honly, hno⟩ : τ.std k = none ∧ Only τ (τ.cell k) t ∧
      ∀ u b' c', u ≠ t → τ.pc u ≠ some (.set k b', c') ∧ τ.pc u ≠ some (.unset k b', c') := by
    have H := I.has t o _ hp
    rcases ho with rfl | rfl
    · obtain ⟨g1, g2, g3, g4, g5⟩ := H
      exact ⟨g2, g3 ht0, fun u b' c' hu => ⟨fun h => hu (g5 u b' c' h), g4 u b' c'⟩⟩
    · obtain ⟨g1, g2, g3, g4, g5, g6⟩ := H
      exact ⟨g2, g4, fun u b' c' hu => ⟨fun h => (I.has u _ _ h).2.2.2.1 t b _ hp, fun h => hu (g6 u b' c' h)⟩⟩
  have tab : ∀ i, τ'.tab i = τ.tab i := by
    intro i
    unfold T.tab; rw [hl]
    exact upd_ne (Ne.symm (cell_ne_reg τ k i))
  have cell : ∀ k, τ'.cell k = τ.cell k := fun k => by unfold T.cell; rw [tab]
  have ne : ∀ {a}, a ≠ τ.cell k → ∀ v', W.data (τ.cell k) v ≠ .data a v' := fun h v' h' => h (W.data.inj h').1.symm
  have only : ∀ {a u}, a ≠ τ.cell k → Only τ a u → Only τ' a u :=
    fun h g => g.push hb hm (by rw [hl]; exact upd_ne h) (ne h)
  have arr : ∀ {a}, a ≠ τ.cell k → Arrived τ a → Arrived τ' a :=
    fun h g => g.push hb hm (by rw [hl]; exact upd_ne h) (ne h)
  have nc : ∀ {k'}, k' ≠ k → τ.cell k' ≠ τ.cell k := fun h g => h (I.cells ht0 g.symm).symm
  have nr : ∀ i, Addr.reg i ≠ τ.cell k := fun i h => cell_ne_reg τ k i h.symm
  have self : Only τ' (τ.cell k) t := Only.pushSelf hb (by rw [hl, upd_same]) honly.1
  have sees : ∀ {u i}, Sees τ u i → Sees τ' u i := by
    intro u i h
    unfold Sees
    rw [hm, tab]
    rcases h with h | h
    · exact Or.inl h
    · exact Or.inr ((push_pend hb).2 (Or.inl h))
  have pcs : ∀ u o1 c1, τ'.pc u = some (o1, c1) → u ≠ t ∧ τ.pc u = some (o1, c1) := by
    intro u o1 c1 h
    rw [hpc] at h
    rcases upd_pc h with ⟨rfl, g⟩ | ⟨hne, g⟩
    · cases g
    · exact ⟨hne, g⟩
  have dat : ∀ {u a v'}, W.data a v' ∈ τ'.buf u → W.data a v' ∈ τ.buf u ∨ (a = τ.cell k) := by
    intro u a v' h
    rcases (push_mem hb).1 h with h | ⟨_, h⟩
    · exact Or.inl h
    · exact Or.inr (W.data.inj h).1
  have un : ∀ {u}, W.unlock ∈ τ'.buf u → W.unlock ∈ τ.buf u := by
    intro u h
    rcases (push_mem hb).1 h with h | ⟨_, h⟩
    · exact h
    · cases h
  have seenlt : ∀ {u id}, τ.seen u id → id < τ.nid := fun h => (I.seen _ _ h).2.1
  refine ⟨by rw [hnx]; exact I.pos, Nat.lt_of_lt_of_le I.npos hni, ?_, ?_, ?_, ?_, ?_, ?_, ?_, ?_, ?_, ?_, ?_, ?_,
    ?_, ?_, ?_, ?_, ?_, ?_, ?_, ?_, ?_⟩
  · intro h u
    rw [hlk] at h
    exact ⟨fun o c h1 => (I.free h u).1 _ _ (pcs u o c h1).2, fun h1 => (I.free h u).2 (un h1)⟩
  · intro u o c h1 hh
    have g := I.one u o c (pcs u o c h1).2 hh
    exact ⟨fun v hv o' c' h4 => g.1 v hv _ _ (pcs v o' c' h4).2, fun v h4 => g.2 v (un h4)⟩
  · intro u u' x y x' y' h1 h2
    rcases push_split hb h1 with ⟨_, _, h3, _⟩ | ⟨y1, h3, h4⟩
    · cases h3
    · rcases push_split hb h2 with ⟨_, _, h5, _⟩ | ⟨y2, h5, h6⟩
      · cases h5
      · obtain ⟨rfl, rfl, rfl⟩ := I.uniq _ _ _ _ _ _ h3 h5
        refine ⟨rfl, rfl, ?_⟩
        rcases h4 with ⟨h4, h7⟩ | ⟨h7, h4⟩ <;> rcases h6 with ⟨h6, h8⟩ | ⟨h8, h6⟩
        · rw [h4, h6]
        · exact absurd h8 h7
        · exact absurd h7 h8
        · rw [h4, h6]
  · intro u o c h1 hh i
    exact only (nr i) (I.regH u o c (pcs u o c h1).2 hh i)
  · intro u x y h i
    rcases push_split hb h with ⟨_, _, h3, _⟩ | ⟨y1, h3, h4⟩
    · cases h3
    · refine ⟨only (nr i) (I.regU u x y1 h3 i).1, ?_⟩
      rcases h4 with ⟨rfl, _⟩ | ⟨_, rfl⟩
      · exact (I.regU u x _ h3 i).2
      · exact pend_snoc (I.regU u x y1 h3 i).2 (ne (nr i))
  · intro h i
    rw [hlk] at h
    exact arr (nr i) (I.regF h i)
  · intro i; rw [hm, tab]; exact I.regV i
  · intro u i v' h
    rw [tab]
    rcases dat h with h | h
    · exact I.regP u i v' h
    · exact absurd h (nr i)
  · intro i; rw [tab, hnx]; exact I.lt i
  · intro i j; rw [tab, tab]; exact I.inj i j
  · intro u r' e v' h
    rw [hnx]
    rcases dat h with h | h
    · exact I.entP u r' e v' h
    · unfold T.cell at h
      injection h with h1 _
      rw [h1]; exact I.lt _
  · intro r' e h
    rw [hnx] at h
    rw [hl, upd_ne]
    · exact I.entL r' e h
    · unfold T.cell
      intro h'
      injection h' with h1 _
      have := I.lt (k / N)
      omega
  · intro u o1 c1 h1
    have := I.knows u o1 c1 (pcs u o1 c1 h1).2
    cases c1 with
    | publish r' =>
      obtain ⟨g1, g2, g3, g4, g5⟩ := this
      have hne : ∀ e, Addr.ent r' e ≠ τ.cell k := by
        intro e h
        unfold T.cell at h
        injection h with h1 _
        exact g4 _ h1.symm
      exact ⟨by rw [tab]; exact g1, g2, by rw [hnx]; exact g3, fun j => by rw [tab]; exact g4 j,
        fun e => ⟨arr (hne e) (g5 e).1, by rw [hl, upd_ne (hne e)]; exact (g5 e).2⟩⟩
    | unlock r => exact ⟨by rw [tab]; exact this.1, this.2.1, sees this.2.2⟩
    | use r => exact ⟨by rw [tab]; exact this.1, this.2.1, sees this.2.2⟩
    | map => show τ'.tab _ = 0; rw [tab]; exact this
    | get => trivial
    | acquire => trivial
    | check => trivial
  · intro u o1 c1 h1
    obtain ⟨hu, h2⟩ := pcs u o1 c1 h1
    have := I.has u o1 c1 h2
    cases o1 with
    | look k => trivial
    | set k' b' =>
      obtain ⟨g1, g2, g3, g4, g5⟩ := this
      have hk : k' ≠ k := by rintro rfl; exact (hno u b' c1 hu).1 h2
      refine ⟨g1, by rw [hs2 k' hk]; exact g2, fun h => ?_, fun w b1 c' h => ?_, fun w b1 c' h => ?_⟩
      · rw [tab] at h
        rw [cell]; exact only (nc hk) (g3 h)
      · exact g4 w b1 c' (pcs _ _ _ h).2
      · exact g5 w b1 c' (pcs _ _ _ h).2
    | unset k' b' =>
      obtain ⟨g1, g2, g3, g4, g5, g6⟩ := this
      have hk : k' ≠ k := by rintro rfl; exact (hno u b' c1 hu).2 h2
      exact ⟨g1, by rw [hs2 k' hk]; exact g2, by rw [tab]; exact g3, by rw [cell]; exact only (nc hk) g4,
          by rw [cell, hl, upd_ne (nc hk)]; exact g5, fun w b1 c' h => g6 w b1 c' (pcs _ _ _ h).2⟩
  · intro k' h
    rw [tab] at h
    rw [cell]
    by_cases hk : k' = k
    · subst hk; exact ⟨t, self⟩
    · obtain ⟨u, hu⟩ := I.ent k' h
      exact ⟨u, only (nc hk) hu⟩
  · intro k' h
    rw [tab] at h
    by_cases hk : k' = k
    · subst hk; exact absurd h ht0
    · rw [hs2 k' hk]; exact I.noT k' h
  · intro k' b' id h
    rw [cell, hl]
    rcases hs1 k' b' id h with h | ⟨rfl, rfl, rfl, h3, h4⟩
    · have hk : k' ≠ k := by rintro rfl; rw [hstd] at h; cases h
      obtain ⟨g1, g2, g3, g4⟩ := I.val k' b' id h
      exact ⟨g1, by rw [upd_ne (nc hk)]; exact g2, g3, Nat.lt_of_lt_of_le g4 hni⟩
    · exact ⟨h3, upd_same _ _ _, I.npos, h4⟩
  · intro k' h1 h2 h3
    rw [tab] at h1
    rw [cell, hl]
    by_cases hk : k' = k
    · subst hk; rw [upd_same]; exact hs3 h2
    · rw [upd_ne (nc hk)]
      refine I.zero k' h1 (by rw [← hs2 k' hk]; exact h2) fun u b' c h => ?_
      by_cases e : u = t
      · subst e
        rw [hp] at h
        cases h
        rcases ho with h' | h'
        · cases h'
        · cases h'; exact hk rfl
      · exact h3 u b' c (by rw [hpc, upd_ne e]; exact h)
  · intro u id h
    rcases hse u id h with h | ⟨rfl, rfl, h3⟩
    · obtain ⟨g1, g2, g3⟩ := I.seen u id h
      refine ⟨g1, Nat.lt_of_lt_of_le g2 hni, fun k' b' hk' => ?_⟩
      rw [cell]
      rcases hs1 k' b' id hk' with hk' | ⟨_, _, rfl, _⟩
      · have hk : k' ≠ k := by rintro rfl; rw [hstd] at hk'; cases hk'
        exact ⟨only (nc hk) (g3 k' b' hk').1, sees (g3 k' b' hk').2⟩
      · exact absurd g2 (Nat.lt_irrefl _)
    · refine ⟨I.npos, h3, fun k' b' hk' => ?_⟩
      rw [cell]
      rcases hs1 k' b' _ hk' with hk' | ⟨rfl, _⟩
      · exact absurd (I.val k' b' _ hk').2.2.2 (Nat.lt_irrefl _)
      · exact ⟨self, sees hsee⟩
  · intro u x y c id h
    rcases push_split hb h with ⟨_, _, h3, _⟩ | ⟨y1, h3, h4⟩
    · cases h3
    · obtain ⟨g1, g2⟩ := I.sent u x y1 c id h3
      refine ⟨hse' _ _ g1, fun k' b' hk' => ?_⟩
      rw [cell]
      rcases hs1 k' b' id hk' with hk' | ⟨_, _, rfl, _⟩
      · have hk : k' ≠ k := by rintro rfl; rw [hstd] at hk'; cases hk'
        obtain ⟨g3, g4⟩ := g2 k' b' hk'
        rcases h4 with ⟨rfl, _⟩ | ⟨_, rfl⟩
        · exact ⟨g3, g4⟩
        · exact ⟨pend_snoc g3 (ne (nc hk)), pend_snoc g4 (ne (nr _))⟩
      · exact absurd (seenlt g1) (Nat.lt_irrefl _)
  · intro c
    rw [hbx, hm]
    obtain ⟨g1, g2⟩ := I.box c
    refine ⟨Nat.lt_of_lt_of_le g1 hni, fun k' b' hk' => ?_⟩
    rw [cell, tab]
    rcases hs1 k' b' _ hk' with hk' | ⟨_, _, h, _⟩
    · have hk : k' ≠ k := by rintro rfl; rw [hstd] at hk'; cases hk'
      exact ⟨arr (nc hk) (g2 k' b' hk').1, (g2 k' b' hk').2⟩
    · omega

theorem Inv.useCell {τ : T} (I : Inv τ) {t r : Nat} {o : Op} (hp : τ.pc t = some (o, .use r)) :
    τ.cell o.key = .ent r (o.key % N) := by
  unfold T.cell; rw [(I.knows t o _ hp).1]

theorem Inv.set {τ : T} (I : Inv τ) {t k b r : Nat} (hp : τ.pc t = some (.set k b, .use r)) :
    Inv ({ τ.store t (.ent r (k % N)) b with std := upd τ.std k (some (b, τ.nid)), nid := τ.nid + 1,
                                              seen := fun u i => (u = t ∧ i = τ.nid) ∨ τ.seen u i,
                                              hist := (k, b) :: τ.hist }.go t none) := by
  have hc : τ.cell k = .ent r (k % N) := I.useCell hp
  rw [← hc]
  have hb : b ≠ 0 := (I.has t _ _ hp).1
  refine I.entry (t := t) (k := k) (b := b) (v := b) (Or.inl rfl) hp rfl rfl rfl rfl rfl rfl rfl (Nat.le_succ _) ?_ ?_ ?_ ?_ ?_
  · intro k' b' id h
    by_cases e : k' = k
    · subst e
      have h' : some (b, τ.nid) = some (b', id) := (upd_same τ.std k' _).symm.trans h
      cases h'
      exact Or.inr ⟨rfl, rfl, rfl, hb, Nat.lt_succ_self _⟩
    · exact Or.inl ((upd_ne (f := τ.std) (v := some (b, τ.nid)) e).symm.trans h)
  · exact fun k' h => upd_ne h
  · intro h
    have h' : some (b, τ.nid) = none := (upd_same τ.std k _).symm.trans h
    cases h'
  · rintro u id (⟨h1, h2⟩ | h)
    · exact Or.inr ⟨h1, h2, Nat.lt_succ_self _⟩
    · exact Or.inl h
  · exact fun u id h => Or.inr h

theorem Inv.unset {τ : T} (I : Inv τ) {t k b r : Nat} (hp : τ.pc t = some (.unset k b, .use r)) :
    Inv ((τ.store t (.ent r (k % N)) 0).go t none) := by
  have hc : τ.cell k = .ent r (k % N) := I.useCell hp
  rw [← hc]
  exact I.entry (t := t) (k := k) (b := b) (v := 0) (Or.inr rfl) hp rfl rfl rfl rfl rfl rfl rfl (Nat.le_refl _)
    (fun k' b' id h => Or.inl h) (fun k' h => rfl) (fun h => rfl) (fun u id h => Or.inl h) (fun u id h => h)

/-- The table of a region is made. -/
theorem Inv.map {τ : T} (I : Inv τ) {t : Nat} {o : Op} (hp : τ.pc t = some (o, .map)) :
    Inv (τ.mapped.go t (some (o, .publish τ.nxt))) := by
  generalize eτ : (τ.mapped.go t (some (o, .publish τ.nxt))) = τ'
  have hr : ∀ i, τ'.mem (.reg i) = τ.mem (.reg i) := fun i => by rw [← eτ]; rfl
  have he : ∀ r e, r ≠ τ.nxt → τ'.mem (.ent r e) = τ.mem (.ent r e) := fun r e h => by rw [← eτ]; exact if_neg h
  have hz : ∀ e, τ'.mem (.ent τ.nxt e) = 0 := fun e => by rw [← eτ]; exact if_pos rfl
  have hb : τ'.buf = τ.buf := by rw [← eτ]; rfl
  have hl : τ'.last = τ.last := by rw [← eτ]; rfl
  have hlk : τ'.lock = τ.lock := by rw [← eτ]; rfl
  have hbx : τ'.box = τ.box := by rw [← eτ]; rfl
  have hnx : τ'.nxt = τ.nxt + 1 := by rw [← eτ]; rfl
  have hst : τ'.std = τ.std := by rw [← eτ]; rfl
  have hni : τ'.nid = τ.nid := by rw [← eτ]; rfl
  have hse : τ'.seen = τ.seen := by rw [← eτ]; rfl
  have hpc : τ'.pc = upd τ.pc t (some (o, .publish τ.nxt)) := by rw [← eτ]; rfl
  clear eτ
  have tab : ∀ i, τ'.tab i = τ.tab i := fun i => by unfold T.tab; rw [hl]
  have cell : ∀ k, τ'.cell k = τ.cell k := fun k => by unfold T.cell; rw [tab]
  have only : ∀ {a u}, τ'.mem a = τ.mem a → Only τ a u → Only τ' a u := by
    intro a u h g
    refine ⟨by rw [hb]; exact g.1, ?_⟩
    rw [hb, hl, view_mem h]; exact g.2
  have arr : ∀ {a}, τ'.mem a = τ.mem a → Arrived τ a → Arrived τ' a := by
    intro a h g
    exact ⟨by rw [hb]; exact g.1, by rw [hl, h]; exact g.2⟩
  have mc : ∀ k, τ'.mem (τ.cell k) = τ.mem (τ.cell k) := by
    intro k
    refine he _ _ (fun h => ?_)
    have := I.lt (k / N)
    omega
  have sees : ∀ {u i}, Sees τ u i → Sees τ' u i := by
    intro u i h
    unfold Sees
    rw [hr, tab, hb]
    exact h
  have pcs : ∀ u o1 c1, τ'.pc u = some (o1, c1) → ∃ c0, τ.pc u = some (o1, c0) ∧ (c1.Holds → c0.Holds) ∧
      ((u = t ∧ o1 = o ∧ c1 = .publish τ.nxt) ∨ (u ≠ t ∧ c0 = c1)) := by
    intro u o1 c1 h
    rw [hpc] at h
    rcases upd_pc h with ⟨rfl, g⟩ | ⟨hne, g⟩
    · cases g; exact ⟨_, hp, fun _ => trivial, Or.inl ⟨rfl, rfl, rfl⟩⟩
    · exact ⟨_, g, fun x => x, Or.inr ⟨hne, rfl⟩⟩
  have hop : ∀ u o1 c1, τ'.pc u = some (o1, c1) → ∃ c0, τ.pc u = some (o1, c0) :=
    fun u o1 c1 h => let ⟨c0, h, _⟩ := pcs u o1 c1 h; ⟨c0, h⟩
  have ht0 : τ.tab (o.key / N) = 0 := I.knows t o _ hp
  refine ⟨by rw [hnx]; exact Nat.succ_pos _, by rw [hni]; exact I.npos, ?_, ?_, by rw [hb]; exact I.uniq, ?_, ?_, ?_, ?_, ?_, ?_, ?_, ?_, ?_,
    ?_, ?_, ?_, ?_, ?_, ?_, ?_, ?_, ?_⟩
  · intro h u
    rw [hlk] at h
    exact absurd trivial ((I.free h t).1 _ _ hp)
  · intro u o1 c1 h1 hh
    obtain ⟨c0, h2, h3, _⟩ := pcs u o1 c1 h1
    have g := I.one u o1 c0 h2 (h3 hh)
    rw [hb]
    refine ⟨fun v hv o' c' h4 h5 => ?_, g.2⟩
    obtain ⟨c2, h6, h7, _⟩ := pcs v o' c' h4
    exact g.1 v hv _ _ h6 (h7 h5)
  · intro u o1 c1 h1 hh i
    obtain ⟨c0, h2, h3, _⟩ := pcs u o1 c1 h1
    exact only (hr i) (I.regH u o1 c0 h2 (h3 hh) i)
  · intro u x y h i
    rw [hb] at h
    exact ⟨only (hr i) (I.regU u x y h i).1, (I.regU u x y h i).2⟩
  · intro h i
    rw [hlk] at h
    exact arr (hr i) (I.regF h i)
  · intro i; rw [hr, tab]; exact I.regV i
  · intro u i v h; rw [hb] at h; rw [tab]; exact I.regP u i v h
  · intro i; rw [tab, hnx]; exact Nat.lt_succ_of_lt (I.lt i)
  · intro i j; rw [tab, tab]; exact I.inj i j
  · intro u r e v h; rw [hb] at h; rw [hnx]; exact Nat.lt_succ_of_lt (I.entP u r e v h)
  · intro r e h; rw [hnx] at h; rw [hl]; exact I.entL r e (Nat.le_of_succ_le h)
  · intro u o1 c1 h1
    obtain ⟨c0, h2, h3, h4⟩ := pcs u o1 c1 h1
    rcases h4 with ⟨rfl, rfl, rfl⟩ | ⟨_, rfl⟩
    · refine ⟨by rw [tab]; exact ht0, Nat.ne_of_gt I.pos, by rw [hnx]; exact Nat.lt_succ_self _, fun j => ?_, fun e => ?_⟩
      · rw [tab]; exact Nat.ne_of_lt (I.lt j)
      · have hle := I.entL τ.nxt e (Nat.le_refl _)
        refine ⟨⟨fun v => ?_, by rw [hz, hl, hle]⟩, by rw [hl, hle]⟩
        rw [hb]
        rintro ⟨x, hx⟩
        exact Nat.lt_irrefl _ (I.entP v _ _ _ hx)
    · have := I.knows u o1 c0 h2
      cases c0 with
      | publish r =>
        obtain ⟨g1, g2, g3, g4, g5⟩ := this
        exact ⟨by rw [tab]; exact g1, g2, by rw [hnx]; exact Nat.lt_succ_of_lt g3, fun j => by rw [tab]; exact g4 j,
          fun e => ⟨arr (he r e (Nat.ne_of_lt g3)) (g5 e).1, by rw [hl]; exact (g5 e).2⟩⟩
      | unlock r => exact ⟨by rw [tab]; exact this.1, this.2.1, sees this.2.2⟩
      | use r => exact ⟨by rw [tab]; exact this.1, this.2.1, sees this.2.2⟩
      | map => show τ'.tab _ = 0; rw [tab]; exact this
      | get => trivial
      | acquire => trivial
      | check => trivial
  · intro u o1 c1 h1
    obtain ⟨c0, h2⟩ := hop u o1 c1 h1
    have := I.has u o1 c0 h2
    cases o1 with
    | look k => trivial
    | set k b =>
      obtain ⟨g1, g2, g3, g4, g5⟩ := this
      refine ⟨g1, by rw [hst]; exact g2, fun h => ?_, fun v b' c' h => ?_, fun v b' c' h => ?_⟩
      · rw [tab] at h
        rw [cell]; exact only (mc k) (g3 h)
      · obtain ⟨c3, h3⟩ := hop v _ c' h
        exact g4 v b' c3 h3
      · obtain ⟨c3, h3⟩ := hop v _ c' h
        exact g5 v b' c3 h3
    | unset k b =>
      obtain ⟨g1, g2, g3, g4, g5, g6⟩ := this
      refine ⟨g1, by rw [hst]; exact g2, by rw [tab]; exact g3, by rw [cell]; exact only (mc k) g4,
          by rw [cell, hl]; exact g5, fun v b' c' h => ?_⟩
      obtain ⟨c3, h3⟩ := hop v _ c' h
      exact g6 v b' c3 h3
  · intro k h
    rw [tab] at h
    obtain ⟨v, hv⟩ := I.ent k h
    exact ⟨v, by rw [cell]; exact only (mc k) hv⟩
  · intro k h
    rw [tab] at h
    rw [hst]; exact I.noT k h
  · intro k b id h
    rw [hst] at h
    rw [cell, hl, hni]; exact I.val k b id h
  · intro k h1 h2 h3
    rw [tab] at h1
    rw [hst] at h2
    rw [cell, hl]
    refine I.zero k h1 h2 fun u b c h => ?_
    by_cases e : u = t
    · subst e
      rw [hp] at h; cases h
      exact h3 u b _ (by rw [hpc, upd_same])
    · exact h3 u b c (by rw [hpc, upd_ne e]; exact h)
  · intro u id h
    rw [hse] at h
    obtain ⟨g1, g2, g3⟩ := I.seen u id h
    refine ⟨g1, by rw [hni]; exact g2, fun k b hk => ?_⟩
    rw [hst] at hk
    rw [cell]
    exact ⟨only (mc k) (g3 k b hk).1, sees (g3 k b hk).2⟩
  · intro u x y c id h
    rw [hb] at h
    rw [hse, hst]
    refine ⟨(I.sent u x y c id h).1, fun k b hk => ?_⟩
    rw [cell]
    exact (I.sent u x y c id h).2 k b hk
  · intro c
    rw [hbx, hni, hst]
    refine ⟨(I.box c).1, fun k b hk => ?_⟩
    rw [cell, tab, hr]
    exact ⟨arr (mc k) ((I.box c).2 k b hk).1, ((I.box c).2 k b hk).2⟩

/-- The store of the new table. -/
theorem Inv.publish {τ : T} (I : Inv τ) {t : Nat} {o : Op} {r : Nat} (hp : τ.pc t = some (o, .publish r)) :
    Inv ({ τ.store t (.reg (o.key / N)) r with maps := o.key / N :: τ.maps }.go t (some (o, .unlock r))) := by
  generalize eτ : ({ τ.store t (.reg (o.key / N)) r with maps := o.key / N :: τ.maps }.go t (some (o, .unlock r))) = τ'
  have hb : τ'.buf = upd τ.buf t (τ.buf t ++ [.data (.reg (o.key / N)) r]) := by rw [← eτ]; rfl
  have hm : τ'.mem = τ.mem := by rw [← eτ]; rfl
  have hl : τ'.last = upd τ.last (.reg (o.key / N)) r := by rw [← eτ]; rfl
  have hlk : τ'.lock = τ.lock := by rw [← eτ]; rfl
  have hbx : τ'.box = τ.box := by rw [← eτ]; rfl
  have hnx : τ'.nxt = τ.nxt := by rw [← eτ]; rfl
  have hst : τ'.std = τ.std := by rw [← eτ]; rfl
  have hni : τ'.nid = τ.nid := by rw [← eτ]; rfl
  have hse : τ'.seen = τ.seen := by rw [← eτ]; rfl
  have hpc : τ'.pc = upd τ.pc t (some (o, .unlock r)) := by rw [← eτ]; rfl
  clear eτ
  obtain ⟨k1, k2, k3, k4, k5⟩ := I.knows t o _ hp
  obtain ⟨n1, n2⟩ := I.one t o _ hp trivial
  have hlt : τ.lock ≠ 0 := fun h => (I.free h t).1 _ _ hp trivial
  generalize hi : o.key / N = i0 at *
  have tab0 : τ'.tab i0 = r := by unfold T.tab; rw [hl]; exact upd_same _ _ _
  have tab : ∀ i, i ≠ i0 → τ'.tab i = τ.tab i := by
    intro i h
    unfold T.tab; rw [hl]
    exact upd_ne (fun h' => h (Addr.reg.inj h'))
  have laste : ∀ r e, τ'.last (.ent r e) = τ.last (.ent r e) := by
    intro r e
    rw [hl]; exact upd_ne (fun h => by cases h)
  have cell : ∀ k, k / N ≠ i0 → τ'.cell k = τ.cell k := fun k h => by unfold T.cell; rw [tab _ h]
  have cell0 : ∀ k, k / N = i0 → τ'.cell k = .ent r (k % N) := fun k h => by unfold T.cell; rw [h, tab0]
  have stn : ∀ {k q}, τ.std k = some q → k / N ≠ i0 := by
    intro k q h h'
    rw [I.noT k (by rw [h']; exact k1)] at h; cases h
  have ne : ∀ {a}, a ≠ .reg i0 → ∀ v, W.data (.reg i0) r ≠ .data a v := fun h v h' => h (W.data.inj h').1.symm
  have only : ∀ {a u}, a ≠ .reg i0 → Only τ a u → Only τ' a u :=
    fun h g => g.push hb hm (by rw [hl]; exact upd_ne h) (ne h)
  have arr : ∀ {a}, a ≠ .reg i0 → Arrived τ a → Arrived τ' a :=
    fun h g => g.push hb hm (by rw [hl]; exact upd_ne h) (ne h)
  have en : ∀ r e i, Addr.ent r e ≠ .reg i := fun r e i h => by cases h
  have arr0 : ∀ k, k / N = i0 → Arrived τ' (τ'.cell k) ∧ τ'.last (τ'.cell k) = 0 := by
    intro k h
    rw [cell0 k h, laste]
    exact ⟨arr (en _ _ _) (k5 _).1, (k5 _).2⟩
  have regO : ∀ i, Only τ' (.reg i) t := by
    intro i
    by_cases e : i = i0
    · subst e
      exact Only.pushSelf hb (by rw [hl, upd_same]) (I.regH t o _ hp trivial i).1
    · exact only (fun h => e (Addr.reg.inj h)) (I.regH t o _ hp trivial i)
  have sees : ∀ {u i}, i ≠ i0 → Sees τ u i → Sees τ' u i := by
    intro u i e h
    unfold Sees
    rw [hm, tab i e]
    rcases h with h | h
    · exact Or.inl h
    · exact Or.inr ((push_pend hb).2 (Or.inl h))
  have pcs : ∀ u o1 c1, τ'.pc u = some (o1, c1) → ∃ c0, τ.pc u = some (o1, c0) ∧ (c1.Holds → c0.Holds) ∧
      ((u = t ∧ o1 = o ∧ c1 = .unlock r) ∨ (u ≠ t ∧ c0 = c1)) := by
    intro u o1 c1 h
    rw [hpc] at h
    rcases upd_pc h with ⟨rfl, g⟩ | ⟨hne, g⟩
    · cases g; exact ⟨_, hp, fun _ => trivial, Or.inl ⟨rfl, rfl, rfl⟩⟩
    · exact ⟨_, g, fun x => x, Or.inr ⟨hne, rfl⟩⟩
  have hop : ∀ u o1 c1, τ'.pc u = some (o1, c1) → ∃ c0, τ.pc u = some (o1, c0) :=
    fun u o1 c1 h => let ⟨c0, h, _⟩ := pcs u o1 c1 h; ⟨c0, h⟩
  have un : ∀ u, W.unlock ∉ τ'.buf u := by
    intro u h
    rcases (push_mem hb).1 h with h | ⟨_, h⟩
    · exact n2 u h
    · cases h
  have mem0 : τ.mem (.reg i0) = 0 := by
    rcases I.regV i0 with h | h
    · exact h
    · rw [h, k1]
  refine ⟨by rw [hnx]; exact I.pos, by rw [hni]; exact I.npos, ?_, ?_, ?_, ?_, ?_, ?_, ?_, ?_, ?_, ?_, ?_, ?_,
    ?_, ?_, ?_, ?_, ?_, ?_, ?_, ?_, ?_⟩
  · intro h u
    rw [hlk] at h
    exact absurd h hlt
  · intro u o1 c1 h1 hh
    obtain ⟨c0, h2, h3, _⟩ := pcs u o1 c1 h1
    refine ⟨fun v hv o' c' h4 h5 => ?_, un⟩
    obtain ⟨c2, h6, h7, _⟩ := pcs v o' c' h4
    exact (I.one u o1 c0 h2 (h3 hh)).1 v hv _ _ h6 (h7 h5)
  · intro u u' x y x' y' h1 _
    exact absurd (by rw [h1]; simp) (un u)
  · intro u o1 c1 h1 hh i
    obtain ⟨c0, h2, h3, h4⟩ := pcs u o1 c1 h1
    rcases h4 with ⟨rfl, _⟩ | ⟨h4, rfl⟩
    · exact regO i
    · exact absurd hh (n1 u h4 _ _ h2)
  · intro u x y h1
    exact absurd (by rw [h1]; simp) (un u)
  · intro h
    rw [hlk] at h
    exact absurd h hlt
  · intro i
    rw [hm]
    by_cases e : i = i0
    · subst e; exact Or.inl mem0
    · rw [tab i e]; exact I.regV i
  · intro u i v h
    rcases (push_mem hb).1 h with h | ⟨_, h⟩
    · obtain ⟨g1, g2⟩ := I.regP u i v h
      have e : i ≠ i0 := by rintro rfl; exact g2 (g1.trans k1)
      rw [tab i e]; exact ⟨g1, g2⟩
    · injection h with h1 h2
      injection h1 with h1
      subst h1 h2
      exact ⟨tab0.symm, k2⟩
  · intro i
    rw [hnx]
    by_cases e : i = i0
    · subst e; rw [tab0]; exact k3
    · rw [tab i e]; exact I.lt i
  · intro i j h h0
    by_cases e : i = i0 <;> by_cases e' : j = i0
    · rw [e, e']
    · subst e
      rw [tab0, tab j e'] at h
      exact absurd h.symm (k4 j)
    · subst e'
      rw [tab0, tab i e] at h
      exact absurd h (k4 i)
    · rw [tab i e] at h h0
      rw [tab j e'] at h
      exact I.inj i j h h0
  · intro u r' e v h
    rw [hnx]
    rcases (push_mem hb).1 h with h | ⟨_, h⟩
    · exact I.entP u r' e v h
    · injection h with h1 _; cases h1
  · intro r' e h
    rw [hnx] at h
    rw [laste]; exact I.entL r' e h
  · intro u o1 c1 h1
    obtain ⟨c0, h2, h3, h4⟩ := pcs u o1 c1 h1
    rcases h4 with ⟨rfl, rfl, rfl⟩ | ⟨hu, rfl⟩
    · refine ⟨by rw [hi, tab0], k2, Or.inr ?_⟩
      rw [hi]
      exact (push_pend hb).2 (Or.inr ⟨rfl, r, rfl⟩)
    · have g := I.knows u o1 c0 h2
      cases c0 with
      | publish r' => exact absurd trivial (n1 u hu _ _ h2)
      | unlock r' => exact absurd trivial (n1 u hu _ _ h2)
      | map => exact absurd trivial (n1 u hu _ _ h2)
      | use r' =>
        obtain ⟨g1, g2, g3⟩ := g
        have e : o1.key / N ≠ i0 := by intro h; rw [h, k1] at g1; exact g2 g1
        exact ⟨by rw [tab _ e]; exact g1, g2, sees e g3⟩
      | get => trivial
      | acquire => trivial
      | check => trivial
  · intro u o1 c1 h1
    obtain ⟨c0, h2⟩ := hop u o1 c1 h1
    have g := I.has u o1 c0 h2
    cases o1 with
    | look k => trivial
    | set k b =>
      obtain ⟨g1, g2, g3, g4, g5⟩ := g
      refine ⟨g1, by rw [hst]; exact g2, fun h => ?_, fun v b' c' h => ?_, fun v b' c' h => ?_⟩
      · by_cases e : k / N = i0
        · exact (arr0 k e).1.only u
        · rw [tab _ e] at h
          rw [cell k e]; exact only (en _ _ _) (g3 h)
      · obtain ⟨c3, h3⟩ := hop v _ c' h
        exact g4 v b' c3 h3
      · obtain ⟨c3, h3⟩ := hop v _ c' h
        exact g5 v b' c3 h3
    | unset k b =>
      obtain ⟨g1, g2, g3, g4, g5, g6⟩ := g
      have e : k / N ≠ i0 := by intro h; rw [h] at g3; exact g3 k1
      refine ⟨g1, by rw [hst]; exact g2, by rw [tab _ e]; exact g3, by rw [cell k e]; exact only (en _ _ _) g4, ?_,
        fun v b' c' h => ?_⟩
      · rw [cell k e]; exact (laste _ _).trans g5
      · obtain ⟨c3, h3⟩ := hop v _ c' h
        exact g6 v b' c3 h3
  · intro k h
    by_cases e : k / N = i0
    · exact ⟨t, (arr0 k e).1.only t⟩
    · rw [tab _ e] at h
      obtain ⟨v, hv⟩ := I.ent k h
      exact ⟨v, by rw [cell k e]; exact only (en _ _ _) hv⟩
  · intro k h
    rw [hst]
    by_cases e : k / N = i0
    · rw [e, tab0] at h; exact absurd h k2
    · rw [tab _ e] at h; exact I.noT k h
  · intro k b id h
    rw [hst] at h
    rw [cell k (stn h), hni]
    obtain ⟨g1, g2, g3⟩ := I.val k b id h
    exact ⟨g1, (laste _ _).trans g2, g3⟩
  · intro k h1 h2 h3
    by_cases e : k / N = i0
    · exact (arr0 k e).2
    · rw [tab _ e] at h1
      rw [hst] at h2
      rw [cell k e]
      refine (laste _ _).trans (I.zero k h1 h2 fun u b c h => ?_)
      by_cases e : u = t
      · subst e
        rw [hp] at h; cases h
        exact h3 u b _ (by rw [hpc, upd_same])
      · exact h3 u b c (by rw [hpc, upd_ne e]; exact h)
  · intro u id h
    rw [hse] at h
    obtain ⟨g1, g2, g3⟩ := I.seen u id h
    refine ⟨g1, by rw [hni]; exact g2, fun k b hk => ?_⟩
    rw [hst] at hk
    rw [cell k (stn hk)]
    exact ⟨only (en _ _ _) (g3 k b hk).1, sees (stn hk) (g3 k b hk).2⟩
  · intro u x y c id h
    rw [hse, hst]
    rcases push_split hb h with ⟨_, _, h3, _⟩ | ⟨y1, h3, h4⟩
    · cases h3
    · refine ⟨(I.sent u x y1 c id h3).1, fun k b hk => ?_⟩
      obtain ⟨g1, g2⟩ := (I.sent u x y1 c id h3).2 k b hk
      rw [cell k (stn hk)]
      rcases h4 with ⟨rfl, _⟩ | ⟨_, rfl⟩
      · exact ⟨g1, g2⟩
      · exact ⟨pend_snoc g1 (ne (en _ _ _)), pend_snoc g2 (ne fun h => stn hk (Addr.reg.inj h))⟩
  · intro c
    rw [hbx, hni, hm, hst]
    refine ⟨(I.box c).1, fun k b hk => ?_⟩
    rw [cell k (stn hk), tab _ (stn hk)]
    exact ⟨arr (en _ _ _) ((I.box c).2 k b hk).1, ((I.box c).2 k b hk).2⟩

/-! ### The oldest store of a thread reaches the memory -/

section pop
variable {τ τ' : T} {t : Nat} {w : W} {l : List W}

theorem pop_mem (h0 : τ.buf t = w :: l) (hb : τ'.buf = upd τ.buf t l) {u : Nat} {z : W} (h : z ∈ τ'.buf u) : z ∈ τ.buf u := by
  rw [hb] at h
  by_cases e : u = t
  · subst e; rw [upd_same] at h; rw [h0]; exact List.mem_cons_of_mem _ h
  · rwa [upd_ne e] at h

theorem pop_split (h0 : τ.buf t = w :: l) (hb : τ'.buf = upd τ.buf t l) {u : Nat} {x y : List W} {z : W}
    (h : τ'.buf u = x ++ z :: y) : τ.buf u = (if u = t then w :: x else x) ++ z :: y := by
  rw [hb] at h
  by_cases e : u = t
  · subst e
    rw [upd_same] at h
    rw [if_pos rfl, h0, h]; rfl
  · rw [upd_ne e] at h
    rw [if_neg e, h]

theorem pop_pend (h0 : τ.buf t = w :: l) (hb : τ'.buf = upd τ.buf t l) {u : Nat} {a : Addr} (h : Pend (τ'.buf u) a) :
    Pend (τ.buf u) a := by
  obtain ⟨v, hv⟩ := h
  exact ⟨v, pop_mem h0 hb hv⟩

theorem pop_keep (h0 : τ.buf t = w :: l) (hb : τ'.buf = upd τ.buf t l) {u : Nat} {a : Addr} (h : Pend (τ.buf u) a) :
    Pend (τ'.buf u) a ∨ (u = t ∧ ∃ v, w = .data a v) := by
  obtain ⟨v, hv⟩ := h
  rw [hb]
  by_cases e : u = t
  · subst e
    rw [h0] at hv
    rw [upd_same]
    rcases List.mem_cons.1 hv with hv | hv
    · exact Or.inr ⟨rfl, v, hv.symm⟩
    · exact Or.inl ⟨v, hv⟩
  · rw [upd_ne e]
    exact Or.inl ⟨v, hv⟩

/-- What the memory becomes. -/
def W.mem (w : W) (m : Addr → Nat) : Addr → Nat :=
  match w with
  | .data a v => upd m a v
  | _ => m

theorem mem_ne (w : W) (m : Addr → Nat) {a : Addr} (h : ∀ v, w ≠ .data a v) : w.mem m a = m a := by
  cases w with
  | data x v => exact upd_ne (by rintro rfl; exact h v rfl)
  | unlock => rfl
  | send c i => rfl

theorem view_cons (w : W) (l : List W) (m : Addr → Nat) : view (w :: l) m = view l (w.mem m) := by
  cases w <;> rfl

theorem Only.pop (h0 : τ.buf t = w :: l) (hb : τ'.buf = upd τ.buf t l) (hm : τ'.mem = w.mem τ.mem) {a : Addr}
    (hl : τ'.last a = τ.last a) {u : Nat} (h : Only τ a u) : Only τ' a u := by
  refine ⟨fun v hv hp => h.1 v hv (pop_pend h0 hb hp), ?_⟩
  rw [hl, ← h.2, hm, hb]
  by_cases e : u = t
  · subst e
    rw [upd_same, h0, view_cons]
  · rw [upd_ne e]
    refine view_mem (mem_ne w _ fun v hv => ?_)
    refine h.1 t (Ne.symm e) ⟨v, ?_⟩
    rw [h0, hv]; exact List.mem_cons_self

theorem Arrived.pop (h0 : τ.buf t = w :: l) (hb : τ'.buf = upd τ.buf t l) (hm : τ'.mem = w.mem τ.mem) {a : Addr}
    (hl : τ'.last a = τ.last a) (h : Arrived τ a) : Arrived τ' a := by
  refine ⟨fun v hp => h.1 v (pop_pend h0 hb hp), ?_⟩
  rw [hl, ← h.2, hm]
  refine mem_ne w _ fun v hv => ?_
  refine h.1 t ⟨v, ?_⟩
  rw [h0, hv]; exact List.mem_cons_self

theorem Inv.pop (I : Inv τ) (h0 : τ.buf t = w :: l) (hb : τ'.buf = upd τ.buf t l) (hm : τ'.mem = w.mem τ.mem)
    (hl : τ'.last = τ.last) (hnx : τ'.nxt = τ.nxt) (hst : τ'.std = τ.std) (hni : τ'.nid = τ.nid) (hse : τ'.seen = τ.seen)
    (hpc : τ'.pc = τ.pc) (hlk : τ'.lock = τ.lock ∨ (w = .unlock ∧ τ'.lock = 0))
    (hbx : τ'.box = τ.box ∨ ∃ c id, w = .send c id ∧ τ'.box = upd τ.box c id) : Inv τ' := by
  have tab : ∀ i, τ'.tab i = τ.tab i := fun i => by unfold T.tab; rw [hl]
  have cell : ∀ k, τ'.cell k = τ.cell k := fun k => by unfold T.cell; rw [tab]
  have only : ∀ {a u}, Only τ a u → Only τ' a u := fun h => h.pop h0 hb hm (by rw [hl])
  have arr : ∀ {a}, Arrived τ a → Arrived τ' a := fun h => h.pop h0 hb hm (by rw [hl])
  have hw : w ∈ τ.buf t := by rw [h0]; exact List.mem_cons_self
  have memr : ∀ i, τ'.mem (.reg i) = τ.mem (.reg i) ∨ τ'.mem (.reg i) = τ.tab i := by
    intro i
    rw [hm]
    by_cases h : ∃ v, w = .data (.reg i) v
    · obtain ⟨v, rfl⟩ := h
      right
      show upd _ _ _ _ = _
      rw [upd_same]; exact (I.regP t i v hw).1
    · exact Or.inl (mem_ne w _ fun v hv => h ⟨v, hv⟩)
  have seem : ∀ i, τ.mem (.reg i) = τ.tab i → τ'.mem (.reg i) = τ.tab i := by
    intro i h
    rcases memr i with h' | h'
    · rw [h', h]
    · exact h'
  have sees : ∀ {u i}, Sees τ u i → Sees τ' u i := by
    intro u i h
    unfold Sees
    rw [tab]
    rcases h with h | h
    · exact Or.inl (seem i h)
    · rcases pop_keep h0 hb h with h | ⟨rfl, v, rfl⟩
      · exact Or.inr h
      · left
        rw [hm]
        show upd _ _ _ _ = _
        rw [upd_same]; exact (I.regP u i v hw).1
  have none_holds : w = .unlock → (∀ u o c, τ.pc u = some (o, c) → ¬ c.Holds) := by
    rintro rfl u o c h hh
    exact (I.one u o c h hh).2 t hw
  have unl : w = .unlock → ∀ u, W.unlock ∉ τ'.buf u := by
    rintro rfl u h
    obtain ⟨x, y, hx⟩ := List.append_of_mem h
    obtain ⟨h1, h2, _⟩ := I.uniq t u [] l _ _ h0 (pop_split h0 hb hx)
    subst h1
    rw [if_pos rfl] at h2
    cases h2
  have lk : τ'.lock = 0 → τ.lock = 0 ∨ w = .unlock := by
    intro h
    rcases hlk with h' | ⟨h', _⟩
    · exact Or.inl (h'.symm.trans h)
    · exact Or.inr h'
  refine ⟨by rw [hnx]; exact I.pos, by rw [hni]; exact I.npos, ?_, ?_, ?_, ?_, ?_, ?_, ?_, ?_, ?_, ?_, ?_, ?_,
    ?_, ?_, ?_, ?_, ?_, ?_, ?_, ?_, ?_⟩
  · intro h u
    rw [hpc]
    rcases lk h with h | h
    · exact ⟨(I.free h u).1, fun h' => (I.free h u).2 (pop_mem h0 hb h')⟩
    · exact ⟨none_holds h u, unl h u⟩
  · intro u o c h hh
    rw [hpc] at h ⊢
    exact ⟨(I.one u o c h hh).1, fun v h' => (I.one u o c h hh).2 v (pop_mem h0 hb h')⟩
  · intro u v x y x' y' h1 h2
    obtain ⟨g1, g2, g3⟩ := I.uniq _ _ _ _ _ _ (pop_split h0 hb h1) (pop_split h0 hb h2)
    subst g1
    refine ⟨rfl, ?_, g3⟩
    split at g2
    · cases g2; rfl
    · exact g2
  · intro u o c h hh i
    rw [hpc] at h
    exact only (I.regH u o c h hh i)
  · intro u x y h i
    have g := I.regU u _ y (pop_split h0 hb h) i
    exact ⟨only g.1, g.2⟩
  · intro h i
    rcases lk h with h | rfl
    · exact arr (I.regF h i)
    · obtain ⟨g1, g2⟩ := I.regU t [] l h0 i
      exact (only g1).arrived (by rw [hb, upd_same]; exact g2)
  · intro i
    rw [tab]
    rcases memr i with h | h
    · rw [h]; exact I.regV i
    · exact Or.inr h
  · intro u i v h
    rw [tab]; exact I.regP u i v (pop_mem h0 hb h)
  · intro i; rw [tab, hnx]; exact I.lt i
  · intro i j; rw [tab, tab]; exact I.inj i j
  · intro u r e v h; rw [hnx]; exact I.entP u r e v (pop_mem h0 hb h)
  · intro r e h; rw [hnx] at h; rw [hl]; exact I.entL r e h
  · intro u o c h
    rw [hpc] at h
    have g := I.knows u o c h
    cases c with
    | publish r =>
      obtain ⟨g1, g2, g3, g4, g5⟩ := g
      exact ⟨by rw [tab]; exact g1, g2, by rw [hnx]; exact g3, fun j => by rw [tab]; exact g4 j,
        fun e => ⟨arr (g5 e).1, by rw [hl]; exact (g5 e).2⟩⟩
    | unlock r => exact ⟨by rw [tab]; exact g.1, g.2.1, sees g.2.2⟩
    | use r => exact ⟨by rw [tab]; exact g.1, g.2.1, sees g.2.2⟩
    | map => show τ'.tab _ = 0; rw [tab]; exact g
    | get => trivial
    | acquire => trivial
    | check => trivial
  · intro u o c h
    rw [hpc] at h
    have g := I.has u o c h
    cases o with
    | look k => trivial
    | set k b =>
      obtain ⟨g1, g2, g3, g4, g5⟩ := g
      refine ⟨g1, by rw [hst]; exact g2, fun h => ?_, by rw [hpc]; exact g4, by rw [hpc]; exact g5⟩
      rw [tab] at h
      rw [cell]; exact only (g3 h)
    | unset k b =>
      obtain ⟨g1, g2, g3, g4, g5, g6⟩ := g
      exact ⟨g1, by rw [hst]; exact g2, by rw [tab]; exact g3, by rw [cell]; exact only g4,
          by rw [cell, hl]; exact g5, by rw [hpc]; exact g6⟩
  · intro k h
    rw [tab] at h
    obtain ⟨v, hv⟩ := I.ent k h
    exact ⟨v, by rw [cell]; exact only hv⟩
  · intro k h
    rw [tab] at h
    rw [hst]; exact I.noT k h
  · intro k b id h
    rw [hst] at h
    rw [cell, hl, hni]; exact I.val k b id h
  · intro k h1 h2 h3
    rw [tab] at h1
    rw [hst] at h2
    rw [hpc] at h3
    rw [cell, hl]; exact I.zero k h1 h2 h3
  · intro u id h
    rw [hse] at h
    obtain ⟨g1, g2, g3⟩ := I.seen u id h
    refine ⟨g1, by rw [hni]; exact g2, fun k b hk => ?_⟩
    rw [hst] at hk
    rw [cell]
    exact ⟨only (g3 k b hk).1, sees (g3 k b hk).2⟩
  · intro u x y c id h
    rw [hse, hst]
    have g := I.sent u _ y c id (pop_split h0 hb h)
    refine ⟨g.1, fun k b hk => ?_⟩
    rw [cell]; exact g.2 k b hk
  · intro c
    rw [hni, hst]
    have old : τ.box c < τ.nid ∧ ∀ k b, τ.std k = some (b, τ.box c) →
        Arrived τ' (τ'.cell k) ∧ τ'.mem (.reg (k / N)) = τ'.tab (k / N) := by
      refine ⟨(I.box c).1, fun k b hk => ?_⟩
      rw [cell, tab]
      exact ⟨arr ((I.box c).2 k b hk).1, seem _ ((I.box c).2 k b hk).2⟩
    rcases hbx with h | ⟨c', id, h1, h2⟩
    · rw [h]; exact old
    · by_cases e : c = c'
      · subst e
        rw [h2, upd_same]
        rw [h1] at h0
        obtain ⟨g1, g2⟩ := I.sent t [] l c id h0
        obtain ⟨g3, g4, g5⟩ := I.seen t id g1
        refine ⟨g4, fun k b hk => ?_⟩
        rw [cell, tab]
        refine ⟨(only (g5 k b hk).1).arrived (by rw [hb, upd_same]; exact (g2 k b hk).1), ?_⟩
        have := sees (g5 k b hk).2
        unfold Sees at this
        rw [tab, hb, upd_same] at this
        rcases this with this | this
        · exact this
        · exact absurd this (g2 k b hk).2
      · rw [h2, upd_ne e]; exact old

end pop

theorem Inv.flush {τ : T} (I : Inv τ) {t : Nat} {w : W} {l : List W} (h0 : τ.buf t = w :: l) :
    Inv (w.apply { τ with buf := upd τ.buf t l }) := by
  cases w with
  | data a v => exact I.pop h0 rfl rfl rfl rfl rfl rfl rfl rfl (Or.inl rfl) (Or.inl rfl)
  | unlock => exact I.pop h0 rfl rfl rfl rfl rfl rfl rfl rfl (Or.inr ⟨rfl, rfl⟩) (Or.inl rfl)
  | send c id => exact I.pop h0 rfl rfl rfl rfl rfl rfl rfl rfl (Or.inl rfl) (Or.inr ⟨c, id, rfl, rfl⟩)

theorem Inv.step {τ τ' : T} {x : Option (Nat × Nat)} (I : Inv τ) (h : Step true τ x τ') : Inv τ' := by
  cases h with
  | call h1 h2 => exact I.call h1 h2
  | get h => exact I.get h
  | acquire h1 h2 => exact I.acquire h1 h2
  | check h => exact I.check h
  | map h => exact I.map h
  | publish h => exact I.publish h
  | unlock h => exact I.unlock h
  | set h1 h2 => exact I.set h1
  | unset h1 h2 => exact I.unset h1
  | unsetNot h1 h2 =>
    rename_i t k b r
    exfalso
    apply h2
    obtain ⟨_, _, _, g4, g5, _⟩ := I.has t _ _ h1
    have hc : τ.cell k = .ent r (k % N) := I.useCell h1
    rw [← hc]
    exact g4.2.trans g5
  | look h => exact I.look h
  | send h => exact I.send h
  | recv h => exact I.recv h
  | flush h1 h2 =>
    rename_i t l1 l2 w
    have := h2 rfl
    subst this
    exact I.flush h1

theorem Reach.inv {τ : T} (h : Reach true τ) : Inv τ := by
  induction h with
  | start => exact Inv.start
  | step _ hs ih => exact ih.step hs

/-! ### Values and tables -/

/-- The entries have only values that were registered in them; one table was published per region. -/
structure Vals (τ : T) : Prop where
  mem : ∀ k, τ.tab (k / N) ≠ 0 → τ.mem (τ.cell k) = 0 ∨ (k, τ.mem (τ.cell k)) ∈ τ.hist
  buf : ∀ k, τ.tab (k / N) ≠ 0 → ∀ t v, W.data (τ.cell k) v ∈ τ.buf t → v = 0 ∨ (k, v) ∈ τ.hist
  maps : ∀ i, i ∈ τ.maps ↔ τ.tab i ≠ 0
  nodup : τ.maps.Nodup

theorem Vals.start : Vals start :=
  ⟨fun k h => absurd rfl h, fun k h => absurd rfl h, fun i => ⟨fun h => (by cases h), fun h => absurd rfl h⟩, List.nodup_nil⟩

/-- Steps that store nothing into the tables. -/
theorem Vals.move {τ τ' : T} (V : Vals τ) (hm : τ'.mem = τ.mem) (hl : τ'.last = τ.last) (hh : τ'.hist = τ.hist)
    (hmp : τ'.maps = τ.maps) (hb : ∀ t a v, W.data a v ∈ τ'.buf t → W.data a v ∈ τ.buf t) : Vals τ' := by
  have tab : ∀ i, τ'.tab i = τ.tab i := fun i => by unfold T.tab; rw [hl]
  have cell : ∀ k, τ'.cell k = τ.cell k := fun k => by unfold T.cell; rw [tab]
  refine ⟨fun k h => ?_, fun k h t v hv => ?_, fun i => ?_, by rw [hmp]; exact V.nodup⟩
  · rw [tab] at h
    rw [cell, hm, hh]; exact V.mem k h
  · rw [tab] at h
    rw [cell] at hv
    rw [hh]; exact V.buf k h t v (hb _ _ _ hv)
  · rw [hmp, tab]; exact V.maps i

theorem Vals.entry {τ τ' : T} (I : Inv τ) (V : Vals τ) {t k v : Nat} (ht0 : τ.tab (k / N) ≠ 0)
    (hb : τ'.buf = upd τ.buf t (τ.buf t ++ [.data (τ.cell k) v])) (hm : τ'.mem = τ.mem)
    (hl : τ'.last = upd τ.last (τ.cell k) v) (hmp : τ'.maps = τ.maps)
    (hh : ∀ x, x ∈ τ.hist → x ∈ τ'.hist) (hv : v = 0 ∨ (k, v) ∈ τ'.hist) : Vals τ' := by
  have tab : ∀ i, τ'.tab i = τ.tab i := by
    intro i
    unfold T.tab; rw [hl]
    exact upd_ne (Ne.symm (cell_ne_reg τ k i))
  have cell : ∀ k, τ'.cell k = τ.cell k := fun k => by unfold T.cell; rw [tab]
  refine ⟨fun k' h => ?_, fun k' h u x hx => ?_, fun i => ?_, by rw [hmp]; exact V.nodup⟩
  · rw [tab] at h
    rw [cell, hm]
    rcases V.mem k' h with h' | h'
    · exact Or.inl h'
    · exact Or.inr (hh _ h')
  · rw [tab] at h
    rw [cell] at hx
    rcases (push_mem hb).1 hx with hx | ⟨_, hx⟩
    · rcases V.buf k' h u x hx with h' | h'
      · exact Or.inl h'
      · exact Or.inr (hh _ h')
    · injection hx with h1 h2
      have := I.cells h h1
      subst this h2
      exact hv
  · rw [hmp, tab]; exact V.maps i

theorem Vals.step {τ τ' : T} {x : Option (Nat × Nat)} (I : Inv τ) (V : Vals τ) (h : Step true τ x τ') : Vals τ' := by
  cases h with
  | call h1 h2 =>
    rename_i t o
    cases o <;> exact V.move rfl rfl rfl rfl fun _ _ _ h => h
  | get h => exact V.move rfl rfl rfl rfl fun _ _ _ h => h
  | acquire h1 h2 => exact V.move rfl rfl rfl rfl fun _ _ _ h => h
  | check h => exact V.move rfl rfl rfl rfl fun _ _ _ h => h
  | map h =>
    rename_i t o
    refine ⟨fun k h => ?_, V.buf, V.maps, V.nodup⟩
    have hne : τ.tab (k / N) ≠ τ.nxt := Nat.ne_of_lt (I.lt _)
    have : (τ.mapped.go t (some (o, .publish τ.nxt))).mem (τ.cell k) = τ.mem (τ.cell k) := if_neg hne
    show (τ.mapped.go t (some (o, .publish τ.nxt))).mem (τ.cell k) = 0 ∨ (k, (τ.mapped.go t (some (o, .publish τ.nxt))).mem (τ.cell k)) ∈ τ.hist
    rw [this]; exact V.mem k h
  | publish h =>
    rename_i t o r
    obtain ⟨k1, k2, k3, k4, k5⟩ := I.knows t o _ h
    generalize eτ : ({ τ.store t (.reg (o.key / N)) r with maps := o.key / N :: τ.maps }.go t (some (o, .unlock r))) = τ'
    have hb : τ'.buf = upd τ.buf t (τ.buf t ++ [.data (.reg (o.key / N)) r]) := by rw [← eτ]; rfl
    have hm : τ'.mem = τ.mem := by rw [← eτ]; rfl
    have hl : τ'.last = upd τ.last (.reg (o.key / N)) r := by rw [← eτ]; rfl
    have hh : τ'.hist = τ.hist := by rw [← eτ]; rfl
    have hmp : τ'.maps = o.key / N :: τ.maps := by rw [← eτ]; rfl
    clear eτ
    generalize hi : o.key / N = i0 at *
    have tab0 : τ'.tab i0 = r := by unfold T.tab; rw [hl]; exact upd_same _ _ _
    have tab : ∀ i, i ≠ i0 → τ'.tab i = τ.tab i := by
      intro i h
      unfold T.tab; rw [hl]
      exact upd_ne (fun h' => h (Addr.reg.inj h'))
    have cell : ∀ k, k / N ≠ i0 → τ'.cell k = τ.cell k := fun k h => by unfold T.cell; rw [tab _ h]
    have cell0 : ∀ k, k / N = i0 → τ'.cell k = .ent r (k % N) := fun k h => by unfold T.cell; rw [h, tab0]
    refine ⟨fun k hk => ?_, fun k hk u x hx => ?_, fun i => ?_, ?_⟩
    · by_cases e : k / N = i0
      · rw [cell0 k e, hm]
        left
        rw [(k5 _).1.2]; exact (k5 _).2
      · rw [tab _ e] at hk
        rw [cell k e, hm, hh]; exact V.mem k hk
    · rcases (push_mem hb).1 hx with hx | ⟨_, hx⟩
      · by_cases e : k / N = i0
        · rw [cell0 k e] at hx
          exact absurd ⟨x, hx⟩ ((k5 _).1.1 u)
        · rw [tab _ e] at hk
          rw [cell k e] at hx
          rw [hh]; exact V.buf k hk u x hx
      · injection hx with h1 _
        exact absurd h1 (cell_ne_reg _ _ _)
    · rw [hmp, List.mem_cons]
      by_cases e : i = i0
      · subst e; rw [tab0]; exact ⟨fun _ => k2, fun _ => Or.inl rfl⟩
      · rw [tab i e, ← V.maps i]
        exact ⟨fun h => h.resolve_left e, Or.inr⟩
    · rw [hmp]
      exact List.nodup_cons.2 ⟨fun h => (V.maps i0).1 h k1, V.nodup⟩
  | unlock h =>
    rename_i t o r
    refine V.move rfl rfl rfl rfl fun u a v h => ?_
    rcases (push_mem (τ := τ) (t := t) (w := .unlock) rfl).1 h with h | ⟨_, h⟩
    · exact h
    · cases h
  | set h1 h2 =>
    rename_i t k b r
    have hc : τ.cell k = .ent r (k % N) := I.useCell h1
    rw [← hc]
    have g := I.knows t _ _ h1
    refine V.entry I (k := k) (v := b) (t := t) ?_ rfl rfl rfl rfl (fun _ h => List.mem_cons_of_mem _ h) (Or.inr List.mem_cons_self)
    intro h
    exact g.2.1 (g.1.trans h)
  | unset h1 h2 =>
    rename_i t k b r
    have hc : τ.cell k = .ent r (k % N) := I.useCell h1
    rw [← hc]
    have g := I.knows t _ _ h1
    refine V.entry I (k := k) (v := 0) (t := t) ?_ rfl rfl rfl rfl (fun _ h => h) (Or.inl rfl)
    intro h
    exact g.2.1 (g.1.trans h)
  | unsetNot h1 h2 => exact V.move rfl rfl rfl rfl fun _ _ _ h => h
  | look h => exact V.move rfl rfl rfl rfl fun _ _ _ h => h
  | send h =>
    rename_i t c id
    refine V.move rfl rfl rfl rfl fun u a v h => ?_
    rcases (push_mem (τ := τ) (t := t) (w := .send c id) rfl).1 h with h | ⟨_, h⟩
    · exact h
    · cases h
  | recv h => exact V.move rfl rfl rfl rfl fun _ _ _ h => h
  | flush h1 h2 =>
    rename_i t l1 l w
    have := h2 rfl
    subst this
    have h0 : τ.buf t = w :: l := h1
    have hw : w ∈ τ.buf t := by rw [h0]; exact List.mem_cons_self
    have back : ∀ u a v, W.data a v ∈ upd τ.buf t l u → W.data a v ∈ τ.buf u := by
      intro u a v h
      by_cases e : u = t
      · subst e; rw [upd_same] at h; rw [h0]; exact List.mem_cons_of_mem _ h
      · rwa [upd_ne e] at h
    cases w with
    | unlock => exact V.move rfl rfl rfl rfl back
    | send c id => exact V.move rfl rfl rfl rfl back
    | data a v =>
      refine ⟨fun k hk => ?_, fun k hk u x hx => V.buf k hk u x (back _ _ _ hx), V.maps, V.nodup⟩
      show upd τ.mem a v (τ.cell k) = 0 ∨ (k, upd τ.mem a v (τ.cell k)) ∈ τ.hist
      by_cases e : τ.cell k = a
      · subst e
        rw [upd_same]; exact V.buf k hk t v hw
      · rw [upd_ne e]; exact V.mem k hk

theorem Reach.vals {τ : T} (h : Reach true τ) : Vals τ := by
  induction h with
  | start => exact Vals.start
  | step hr hs ih => exact ih.step hr.inv hs

end RegionTso
end MpcAlloc
