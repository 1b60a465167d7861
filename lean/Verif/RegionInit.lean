import Verif.Basic
import Mathlib.Data.List.Nodup

/-
The tables of the regions when several threads use them for the first time (sctk_allocator.c), as steps of interleaving
threads, and property C52. Region.lean has the same functions for one thread at a time, without the initialisation of the
lock.
-/

namespace MpcAlloc
namespace RegionInit

/-- Entries of the table of a region: 1 TB / 2 MB, sctk_alloc_common.h 106, sctk_alloc_region.h. -/
def N : Nat := 524288

/-- What a call wants: register the bloc `b` in the entry `k` (one turn of the loop of `sctk_alloc_region_set_entry`,
sctk_allocator.c 2330-2339), or read the entry `k` (`sctk_alloc_region_get_macro_bloc`, 2398). Entries are numbered from
address 0, so the entry `k` is in the region `k / N`. -/
inductive Op
  | set (k b : Nat)
  | look (k : Nat)
deriving DecidableEq

def Op.key : Op → Nat
  | .set k _ => k
  | .look k => k

/-- Where a thread is in its call.
* `get`: at the read of `sctk_alloc_glob_regions[id]` in `sctk_alloc_region_get_entry` (2267);
* `test`: in `sctk_alloc_region_setup`, at the test of `sctk_alloc_region_init` (2477);
* `initLock`, `initFlag`, `wipe`: at the three statements of its branch (2478, 2479, 2482; the `memset` is one step);
* `acquire`: in the loop of the spinlock (2220);
* `check`: at the test under the lock (2223); `map`: at `sctk_mmap` (2226); `publish r`: at the store of the new table (2232);
* `unlock r`: at the unlock (2238);
* `use r`: at the access to the entry of the table `r`. -/
inductive Stage
  | get
  | test
  | initLock
  | initFlag
  | wipe
  | acquire
  | check
  | map
  | publish (r : Nat)
  | unlock (r : Nat)
  | use (r : Nat)
deriving DecidableEq

/-- `sctk_alloc_glob_regions_init`, the lock, `sctk_alloc_glob_regions` (0 for NULL), the contents of the tables (number,
entry), the number of the next table that the kernel gives (addresses of tables are replaced by numbers), the threads (what
they are doing, if they are in a call). Not in the code: the registrations that have returned, and the regions for which a
table was published. -/
structure S where
  init : Bool
  lock : Nat
  reg : Nat → Nat
  tab : Nat → Nat → Nat
  nxt : Nat
  pc : Nat → Option (Op × Stage)
  done : List (Nat × Nat)
  maps : List Nat

/-- Static initialisation. -/
def start : S := ⟨false, 0, fun _ => 0, fun _ _ => 0, 1, fun _ => none, [], []⟩

def upd {α : Type} (f : Nat → α) (t : Nat) (x : α) : Nat → α := fun u => if u = t then x else f u

def S.go (s : S) (t : Nat) (c : Option (Op × Stage)) : S := { s with pc := upd s.pc t c }

/-- The step of thread `t` in the call `o`, and the result of a `look` that ends. The pages of a new table are zero. A
failing `mmap` is left out: the code aborts. -/
def stage (s : S) (t : Nat) (o : Op) : Stage → Outcome (S × Option Nat)
  | .get => .ok (s.go t (some (o, if s.reg (o.key / N) = 0 then .test else .use (s.reg (o.key / N)))), none)
  | .test => .ok (s.go t (some (o, if s.init = false then .initLock else .acquire)), none)
  | .initLock => .ok ({ s with lock := 0 }.go t (some (o, .initFlag)), none)
  | .initFlag => .ok ({ s with init := true }.go t (some (o, .wipe)), none)
  | .wipe => .ok ({ s with reg := fun _ => 0 }.go t (some (o, .acquire)), none)
  | .acquire => .ok ({ s with lock := 1 }.go t (some (o, if s.lock = 0 then .check else .acquire)), none)
  | .check => .ok (s.go t (some (o, if s.reg (o.key / N) = 0 then .map else .unlock (s.reg (o.key / N)))), none)
  | .map => .ok ({ s with tab := upd s.tab s.nxt (fun _ => 0), nxt := s.nxt + 1 }.go t (some (o, .publish s.nxt)), none)
  | .publish r =>
    .ok ({ s with reg := upd s.reg (o.key / N) r, maps := o.key / N :: s.maps }.go t (some (o, .unlock r)), none)
  | .unlock r => .ok ({ s with lock := 0 }.go t (some (o, .use r)), none)
  | .use r =>
    match o with
    | .set k b =>
      if s.tab r k ≠ 0 then .abort
      else .ok ({ s with tab := upd s.tab r (upd (s.tab r) k b), done := (k, b) :: s.done }.go t none, none)
    | .look k => .ok (s.go t none, some (s.tab r k))

/-- One step of thread `t`. -/
def step (s : S) (t : Nat) : Outcome (S × Option Nat) :=
  match s.pc t with
  | none => .ok (s, none)
  | some (o, c) => stage s t o c

/-- The thread is in a call that registers the entry `k`. -/
def Sets (p : Option (Op × Stage)) (k : Nat) : Prop := ∃ b c, p = some (.set k b, c)

/-- The initialisation is over. -/
def S.Ready (s : S) : Prop := s.init = true ∧ ∀ u o, s.pc u ≠ some (o, .wipe)

/-- Runs of any number of threads that register different entries and read entries, with a first call that is alone until
the initialisation is over if `alone` holds. -/
inductive Reach (alone : Prop) : S → Prop
  | start : Reach alone start
  | call {s : S} {t : Nat} {o : Op} : Reach alone s → s.pc t = none →
      (∀ k b, o = .set k b → b ≠ 0 ∧ (∀ u, ¬ Sets (s.pc u) k) ∧ ∀ c, (k, c) ∉ s.done) →
      (alone → s.Ready ∨ ∀ u, s.pc u = none) → Reach alone (s.go t (some (o, .get)))
  | step {s s' : S} {t : Nat} {x : Option Nat} : Reach alone s → step s t = .ok (s', x) → Reach alone s'

/-! ## Invariant -/

/-- The stages at which the lock is held. -/
def Stage.Holds : Stage → Prop
  | .check => True
  | .map => True
  | .publish _ => True
  | .unlock _ => True
  | _ => False

/-- What a thread at a stage of a call for an entry of the region `i` knows. -/
def S.Knows (s : S) (i : Nat) : Stage → Prop
  | .initLock => False
  | .initFlag => False
  | .wipe => False
  | .map => s.reg i = 0
  | .publish r => s.reg i = 0 ∧ r ≠ 0 ∧ r < s.nxt ∧ (∀ j, s.reg j ≠ r) ∧ ∀ k, s.tab r k = 0
  | .unlock r => s.reg i = r ∧ r ≠ 0
  | .use r => s.reg i = r ∧ r ≠ 0
  | _ => True

structure Inv (s : S) : Prop where
  init : s.init = true
  knows : ∀ u o c, s.pc u = some (o, c) → s.Knows (o.key / N) c
  free : s.lock = 0 → ∀ u o c, s.pc u = some (o, c) → ¬ c.Holds
  uniq : ∀ u v o c o' c', s.pc u = some (o, c) → s.pc v = some (o', c') → c.Holds → c'.Holds → u = v
  pos : 0 < s.nxt
  lt : ∀ i, s.reg i < s.nxt
  inj : ∀ i j, s.reg i = s.reg j → s.reg i ≠ 0 → i = j
  done : ∀ k b, (k, b) ∈ s.done → b ≠ 0 ∧ s.reg (k / N) ≠ 0 ∧ s.tab (s.reg (k / N)) k = b
  conv : ∀ i k, s.reg i ≠ 0 → s.tab (s.reg i) k ≠ 0 → ∃ b, (k, b) ∈ s.done
  sets : ∀ u k b c, s.pc u = some (.set k b, c) → b ≠ 0 ∧ ∀ d, (k, d) ∉ s.done
  dist : ∀ u v k, Sets (s.pc u) k → Sets (s.pc v) k → u = v
  nodup : s.maps.Nodup
  maps : ∀ i, i ∈ s.maps ↔ s.reg i ≠ 0

/-- Before the end of the initialisation: at most one call, the tables are empty. -/
structure Inv0 (s : S) : Prop where
  lock : s.lock = 0
  reg : s.reg = fun _ => 0
  nxt : s.nxt = 1
  done : s.done = []
  maps : s.maps = []
  pc : (s.init = false ∧ ∀ u, s.pc u = none) ∨
    ∃ t o c, s.pc t = some (o, c) ∧ (∀ u, u ≠ t → s.pc u = none) ∧ (∀ k b, o = .set k b → b ≠ 0) ∧
      (s.init = false ∧ (c = .get ∨ c = .test ∨ c = .initLock ∨ c = .initFlag) ∨ s.init = true ∧ c = .wipe)

theorem upd_same {α : Type} (f : Nat → α) (t : Nat) (x : α) : upd f t x t = x := if_pos rfl

theorem upd_ne {α : Type} {f : Nat → α} {t : Nat} {x : α} {u : Nat} (h : u ≠ t) : upd f t x u = f u := if_neg h

/-- A step that changes only the place of `t`, and the lock. -/
theorem Inv.move {s : S} (I : Inv s) {t lk : Nat} {o : Op} {c c' : Stage} (hp : s.pc t = some (o, c))
    (hk : s.Knows (o.key / N) c') (h0 : lk = 0 → s.lock = 0 ∨ c.Holds)
    (h1 : lk = 0 → ¬ c'.Holds) (h2 : c'.Holds → c.Holds ∨ s.lock = 0) :
    Inv ({ s with lock := lk }.go t (some (o, c'))) := by
  have pcs : ∀ u o1 c1, upd s.pc t (some (o, c')) u = some (o1, c1) →
      (u = t ∧ o1 = o ∧ c1 = c') ∨ (u ≠ t ∧ s.pc u = some (o1, c1)) := by
    intro u o1 c1
    unfold upd
    split
    · rintro h
      obtain ⟨rfl, rfl⟩ := Prod.mk.inj (Option.some.inj h)
      exact Or.inl ⟨‹_›, rfl, rfl⟩
    · exact fun h => Or.inr ⟨‹_›, h⟩
  refine ⟨I.init, ?_, ?_, ?_, I.pos, I.lt, I.inj, I.done, I.conv, ?_, ?_, I.nodup, I.maps⟩
  · intro u o1 c1 h
    rcases pcs u o1 c1 h with ⟨rfl, rfl, rfl⟩ | ⟨_, h'⟩
    · cases c1 <;> exact hk
    · have := I.knows u o1 c1 h'
      cases c1 <;> exact this
  · intro hl u o1 c1 h
    rcases pcs u o1 c1 h with ⟨rfl, rfl, rfl⟩ | ⟨hu, h'⟩
    · exact h1 hl
    · rcases h0 hl with h0 | h0
      · exact I.free h0 u o1 c1 h'
      · exact fun hh => hu (I.uniq u t o1 c1 o c h' hp hh h0)
  · intro u v o1 c1 o2 c2 hu hv k1 k2
    rcases pcs u o1 c1 hu with ⟨rfl, rfl, rfl⟩ | ⟨n1, e1⟩ <;> rcases pcs v o2 c2 hv with ⟨rfl, rfl, rfl⟩ | ⟨n2, e2⟩
    · rfl
    · rcases h2 k1 with h | h
      · exact I.uniq _ _ _ _ _ _ hp e2 h k2
      · exact absurd k2 (I.free h _ _ _ e2)
    · rcases h2 k2 with h | h
      · exact I.uniq _ _ _ _ _ _ e1 hp k1 h
      · exact absurd k1 (I.free h _ _ _ e1)
    · exact I.uniq _ _ _ _ _ _ e1 e2 k1 k2
  · intro u k b c1 h
    rcases pcs u _ c1 h with ⟨rfl, h', rfl⟩ | ⟨_, h'⟩
    · subst h'; exact I.sets u k b c hp
    · exact I.sets u k b c1 h'
  · have key : ∀ u k, Sets (upd s.pc t (some (o, c')) u) k → Sets (s.pc u) k := by
      rintro u k ⟨b, c1, h⟩
      rcases pcs u _ c1 h with ⟨rfl, h', rfl⟩ | ⟨_, h'⟩
      · subst h'; exact ⟨b, c, hp⟩
      · exact ⟨b, c1, h'⟩
    exact fun u v k hu hv => I.dist u v k (key u k hu) (key v k hv)

theorem go_same (s : S) (t : Nat) (c : Option (Op × Stage)) : ({ s with lock := s.lock }.go t c) = s.go t c := rfl

/-- `sctk_mmap` gives a new table. -/
theorem Inv.mapped {s : S} (I : Inv s) : Inv { s with tab := upd s.tab s.nxt (fun _ => 0), nxt := s.nxt + 1 } := by
  have ht : ∀ i, upd s.tab s.nxt (fun _ => 0) (s.reg i) = s.tab (s.reg i) := fun i => upd_ne (Nat.ne_of_lt (I.lt i))
  refine ⟨I.init, ?_, I.free, I.uniq, Nat.succ_pos _, fun i => Nat.lt_succ_of_lt (I.lt i), I.inj, ?_, ?_, I.sets, I.dist,
    I.nodup, I.maps⟩
  · intro u o c h
    have := I.knows u o c h
    cases c with
    | publish r =>
      obtain ⟨h1, h2, h3, h4, h5⟩ := this
      refine ⟨h1, h2, Nat.lt_succ_of_lt h3, h4, fun k => ?_⟩
      show upd s.tab s.nxt _ r k = 0
      rw [upd_ne (Nat.ne_of_lt h3)]
      exact h5 k
    | _ => exact this
  · intro k b h
    obtain ⟨h1, h2, h3⟩ := I.done k b h
    refine ⟨h1, h2, ?_⟩
    show upd s.tab s.nxt _ (s.reg (k / N)) k = b
    rw [ht]; exact h3
  · intro i k h1 h2
    refine I.conv i k h1 ?_
    have : upd s.tab s.nxt (fun _ => 0) (s.reg i) k ≠ 0 := h2
    rw [ht] at this; exact this

/-- A step keeps the invariant, and does not abort. The value that is read is the one of the tables. -/
theorem Inv.step {s : S} (I : Inv s) (t : Nat) : ∃ s' x, step s t = .ok (s', x) ∧ Inv s' ∧
    (∀ p ∈ s.done, p ∈ s'.done) ∧
    ∀ v, x = some v → ∃ k c, s.pc t = some (.look k, c) ∧ s.reg (k / N) ≠ 0 ∧ v = s.tab (s.reg (k / N)) k := by
  unfold RegionInit.step
  cases hp : s.pc t with
  | none => exact ⟨s, none, rfl, I, fun _ h => h, fun _ h => absurd h (by simp)⟩
  | some q =>
    obtain ⟨o, c⟩ := q
    have hk := I.knows t o c hp
    simp only
    cases c with
    | get =>
      refine ⟨_, none, rfl, ?_, fun _ h => h, fun _ h => absurd h (by simp)⟩
      rw [← go_same]
      refine I.move hp ?_ Or.inl ?_ ?_
      · split
        · trivial
        · exact ⟨rfl, ‹_›⟩
      · intro _; split <;> exact id
      · intro h; revert h; split <;> exact False.elim
    | test =>
      refine ⟨_, none, rfl, ?_, fun _ h => h, fun _ h => absurd h (by simp)⟩
      rw [← go_same, I.init]
      exact I.move hp trivial Or.inl (fun _ h => h) (fun h => h.elim)
    | initLock => exact hk.elim
    | initFlag => exact hk.elim
    | wipe => exact hk.elim
    | acquire =>
      refine ⟨_, none, rfl, ?_, fun _ h => h, fun _ h => absurd h (by simp)⟩
      refine I.move hp ?_ (fun h => absurd h Nat.one_ne_zero) (fun h => absurd h Nat.one_ne_zero) ?_
      · split <;> trivial
      · intro h
        by_cases h0 : s.lock = 0
        · exact Or.inr h0
        · rw [if_neg h0] at h; exact h.elim
    | check =>
      refine ⟨_, none, rfl, ?_, fun _ h => h, fun _ h => absurd h (by simp)⟩
      rw [← go_same]
      refine I.move hp ?_ Or.inl ?_ (fun _ => Or.inl trivial)
      · split
        · exact ‹_›
        · exact ⟨rfl, ‹_›⟩
      · intro h0
        exact absurd trivial (I.free h0 t o .check hp)
    | map =>
      refine ⟨_, none, rfl, ?_, fun _ h => h, fun _ h => absurd h (by simp)⟩
      have J := I.mapped
      refine J.move (lk := s.lock) (c := .map) (o := o) hp ?_ Or.inl ?_ (fun _ => Or.inl trivial)
      · refine ⟨hk, Nat.ne_of_gt I.pos, Nat.lt_succ_self _, fun j => Nat.ne_of_lt (I.lt j), fun k => ?_⟩
        show upd s.tab s.nxt _ s.nxt k = 0
        rw [upd_same]
      · intro h0
        exact absurd trivial (I.free h0 t o .map hp)
    | publish r =>
      refine ⟨_, none, rfl, ?_, fun _ h => h, fun _ h => absurd h (by simp)⟩
      obtain ⟨h1, h2, h3, h4, h5⟩ := hk
      have hl : s.lock ≠ 0 := fun h0 => I.free h0 t o (.publish r) hp trivial
      have pcs : ∀ u o1 c1, upd s.pc t (some (o, Stage.unlock r)) u = some (o1, c1) →
          (u = t ∧ o1 = o ∧ c1 = .unlock r) ∨ (u ≠ t ∧ s.pc u = some (o1, c1) ∧ ¬ c1.Holds) := by
        intro u o1 c1
        unfold upd
        split
        · rintro h
          obtain ⟨rfl, rfl⟩ := Prod.mk.inj (Option.some.inj h)
          exact Or.inl ⟨‹_›, rfl, rfl⟩
        · rename_i hu
          exact fun h => Or.inr ⟨hu, h, fun hh => hu (I.uniq u t o1 c1 o _ h hp hh trivial)⟩
      have hreg : ∀ i, i ≠ o.key / N → upd s.reg (o.key / N) r i = s.reg i := fun i hi => upd_ne hi
      have hreg0 : upd s.reg (o.key / N) r (o.key / N) = r := upd_same _ _ _
      have hne : ∀ i, s.reg i ≠ 0 → i ≠ o.key / N := by
        intro i hi h; subst h; exact hi h1
      refine ⟨I.init, ?_, fun h => absurd h hl, ?_, I.pos, ?_, ?_, ?_, ?_, ?_, ?_, ?_, ?_⟩
      · intro u o1 c1 h
        rcases pcs u o1 c1 h with ⟨rfl, rfl, rfl⟩ | ⟨_, h', hn⟩
        · exact ⟨hreg0, h2⟩
        · have := I.knows u o1 c1 h'
          cases c1 with
          | map => exact absurd trivial hn
          | publish => exact absurd trivial hn
          | unlock => exact absurd trivial hn
          | use r' =>
            refine ⟨?_, this.2⟩
            show upd s.reg (o.key / N) r (o1.key / N) = r'
            rw [hreg _ (hne _ (by rw [this.1]; exact this.2))]
            exact this.1
          | _ => exact this
      · intro u v o1 c1 o2 c2 hu hv k1 k2
        rcases pcs u o1 c1 hu with ⟨rfl, rfl, rfl⟩ | ⟨n1, e1, m1⟩
        · rcases pcs v o2 c2 hv with ⟨rfl, rfl, rfl⟩ | ⟨n2, e2, m2⟩
          · rfl
          · exact absurd k2 m2
        · exact absurd k1 m1
      · intro i
        show upd s.reg (o.key / N) r i < s.nxt
        by_cases hi : i = o.key / N
        · rw [hi, hreg0]; exact h3
        · rw [hreg i hi]; exact I.lt i
      · intro i j hij hi0
        have hij : upd s.reg (o.key / N) r i = upd s.reg (o.key / N) r j := hij
        have hi0 : upd s.reg (o.key / N) r i ≠ 0 := hi0
        by_cases hi : i = o.key / N
        · by_cases hj : j = o.key / N
          · rw [hi, hj]
          · rw [hi, hreg0, hreg j hj] at hij
            exact absurd hij.symm (h4 j)
        · rw [hreg i hi] at hij hi0
          by_cases hj : j = o.key / N
          · rw [hj, hreg0] at hij
            exact absurd hij (h4 i)
          · rw [hreg j hj] at hij
            exact I.inj i j hij hi0
      · intro k b h
        obtain ⟨g1, g2, g3⟩ := I.done k b h
        show b ≠ 0 ∧ upd s.reg (o.key / N) r (k / N) ≠ 0 ∧ s.tab (upd s.reg (o.key / N) r (k / N)) k = b
        rw [hreg _ (hne _ g2)]
        exact ⟨g1, g2, g3⟩
      · intro i k hi0 hk0
        have hi0 : upd s.reg (o.key / N) r i ≠ 0 := hi0
        have hk0 : s.tab (upd s.reg (o.key / N) r i) k ≠ 0 := hk0
        by_cases hi : i = o.key / N
        · rw [hi, hreg0] at hk0; exact absurd (h5 k) hk0
        · rw [hreg i hi] at hi0 hk0
          exact I.conv i k hi0 hk0
      · intro u k b c1 h
        rcases pcs u _ c1 h with ⟨rfl, h', rfl⟩ | ⟨_, h', _⟩
        · subst h'; exact I.sets u k b _ hp
        · exact I.sets u k b c1 h'
      · have key : ∀ u k, Sets (upd s.pc t (some (o, Stage.unlock r)) u) k → Sets (s.pc u) k := by
          rintro u k ⟨b, c1, h⟩
          rcases pcs u _ c1 h with ⟨rfl, h', rfl⟩ | ⟨_, h', _⟩
          · subst h'; exact ⟨b, _, hp⟩
          · exact ⟨b, c1, h'⟩
        exact fun u v k hu hv => I.dist u v k (key u k hu) (key v k hv)
      · exact List.nodup_cons.2 ⟨fun h => (I.maps _).1 h h1, I.nodup⟩
      · intro i
        show i ∈ o.key / N :: s.maps ↔ upd s.reg (o.key / N) r i ≠ 0
        by_cases hi : i = o.key / N
        · rw [hi, hreg0]; simp [h2]
        · rw [hreg i hi, List.mem_cons]
          exact ⟨fun h => (I.maps i).1 (h.resolve_left hi), fun h => Or.inr ((I.maps i).2 h)⟩
    | unlock r =>
      refine ⟨_, none, rfl, ?_, fun _ h => h, fun _ h => absurd h (by simp)⟩
      exact I.move hp hk (fun _ => Or.inr trivial) (fun _ h => h) (fun h => h.elim)
    | use r =>
      obtain ⟨hr, hr0⟩ := hk
      have pcs : ∀ u o1 c1, upd s.pc t none u = some (o1, c1) → u ≠ t ∧ s.pc u = some (o1, c1) := by
        intro u o1 c1
        unfold upd
        split
        · intro h; cases h
        · exact fun h => ⟨‹_›, h⟩
      have out : Inv (s.go t none) := by
        refine ⟨I.init, fun u o1 c1 h => ?_, fun h0 u o1 c1 h => I.free h0 u o1 c1 (pcs u o1 c1 h).2,
          fun u v o1 c1 o2 c2 hu hv => I.uniq u v o1 c1 o2 c2 (pcs _ _ _ hu).2 (pcs _ _ _ hv).2, I.pos, I.lt, I.inj, I.done,
          I.conv, fun u k b c1 h => I.sets u k b c1 (pcs _ _ _ h).2, ?_, I.nodup, I.maps⟩
        · have := I.knows u o1 c1 (pcs u o1 c1 h).2
          cases c1 <;> exact this
        · rintro u v k ⟨b, c1, h⟩ ⟨b', c2, h'⟩
          exact I.dist u v k ⟨b, c1, (pcs _ _ _ h).2⟩ ⟨b', c2, (pcs _ _ _ h').2⟩
      cases o with
      | look k =>
        refine ⟨_, _, rfl, out, fun _ h => h, fun v hv => ⟨k, _, rfl, ?_, ?_⟩⟩
        · intro h; exact hr0 (hr.symm.trans h)
        · rw [show s.reg (k / N) = r from hr]; exact (Option.some.inj hv).symm
      | set k b =>
        replace hr : s.reg (k / N) = r := hr
        obtain ⟨hb, hnd⟩ := I.sets t k b _ hp
        have h0 : s.tab r k = 0 := by
          by_contra hc
          obtain ⟨d, hd⟩ := I.conv (k / N) k (by rw [hr]; exact hr0) (by rw [hr]; exact hc)
          exact hnd d hd
        unfold stage
        simp only
        rw [if_neg (not_not.2 h0)]
        refine ⟨_, none, rfl, ?_, fun _ h => List.mem_cons_of_mem _ h, fun _ h => absurd h (by simp)⟩
        have tabs : ∀ i x, (i ≠ k / N ∨ x ≠ k) → s.reg i ≠ 0 →
            upd s.tab r (upd (s.tab r) k b) (s.reg i) x = s.tab (s.reg i) x := by
          intro i x h hi0
          by_cases hi : s.reg i = r
          · have : i = k / N := I.inj i _ (hi.trans hr.symm) hi0
            rw [hi, upd_same, upd_ne (h.resolve_left (not_not.2 this))]
          · rw [upd_ne hi]
        refine ⟨out.init, ?_, out.free, out.uniq, out.pos, out.lt, out.inj, ?_, ?_, ?_, out.dist, out.nodup, out.maps⟩
        · intro u o1 c1 h
          have := out.knows u o1 c1 h
          cases c1 with
          | publish r' =>
            obtain ⟨g1, g2, g3, g4, g5⟩ := this
            refine ⟨g1, g2, g3, g4, fun x => ?_⟩
            have hne : r' ≠ r := fun e => g4 (k / N) (hr.trans e.symm)
            show upd s.tab r _ r' x = 0
            rw [upd_ne hne]
            exact g5 x
          | _ => exact this
        · intro k' b' h
          show b' ≠ 0 ∧ s.reg (k' / N) ≠ 0 ∧ upd s.tab r (upd (s.tab r) k b) (s.reg (k' / N)) k' = b'
          rcases List.mem_cons.1 h with h1 | h1
          · obtain ⟨rfl, rfl⟩ := Prod.mk.inj h1
            refine ⟨hb, by rw [hr]; exact hr0, ?_⟩
            rw [hr, upd_same, upd_same]
          · obtain ⟨g1, g2, g3⟩ := I.done k' b' h1
            refine ⟨g1, g2, ?_⟩
            rw [tabs _ _ (Or.inr ?_) g2]
            · exact g3
            · rintro rfl; exact hnd b' h1
        · intro i x hi0 hx
          have hx : upd s.tab r (upd (s.tab r) k b) (s.reg i) x ≠ 0 := hx
          by_cases hxk : x = k
          · exact ⟨b, by rw [hxk]; exact List.mem_cons_self⟩
          · rw [tabs i x (Or.inr hxk) hi0] at hx
            obtain ⟨d, hd⟩ := I.conv i x hi0 hx
            exact ⟨d, List.mem_cons_of_mem _ hd⟩
        · intro u k' b' c1 h
          obtain ⟨hu, h'⟩ := pcs _ _ _ h
          obtain ⟨g1, g2⟩ := I.sets u k' b' c1 h'
          refine ⟨g1, fun d hd => ?_⟩
          rcases List.mem_cons.1 hd with hd | hd
          · obtain ⟨rfl, rfl⟩ := Prod.mk.inj hd
            exact hu (I.dist u t k' ⟨b', c1, h'⟩ ⟨_, _, hp⟩)
          · exact g2 d hd

/-- A step of the initialisation by one thread. -/
theorem Inv0.step {s : S} (I : Inv0 s) (t : Nat) : ∃ s', RegionInit.step s t = .ok (s', none) ∧ (Inv0 s' ∨ Inv s') ∧
    s.done = s'.done := by
  unfold RegionInit.step
  cases hp : s.pc t with
  | none => exact ⟨s, rfl, Or.inl I, rfl⟩
  | some q =>
    obtain ⟨o, c⟩ := q
    rcases I.pc with ⟨_, h⟩ | ⟨t', o', c', h1, h2, h3, h4⟩
    · rw [h] at hp; cases hp
    · have htt : t = t' := by
        by_contra h; rw [h2 t h] at hp; cases hp
      subst htt
      rw [hp] at h1
      obtain ⟨rfl, rfl⟩ := Prod.mk.inj (Option.some.inj h1)
      have others : ∀ x u, u ≠ t → upd s.pc t x u = none := fun x u hu => by rw [upd_ne hu]; exact h2 u hu
      have pct : ∀ x, upd s.pc t x t = x := fun x => upd_same _ _ _
      rcases h4 with ⟨h4, rfl | rfl | rfl | rfl⟩ | ⟨h4, rfl⟩
      · refine ⟨_, rfl, Or.inl ⟨I.lock, I.reg, I.nxt, I.done, I.maps, Or.inr ⟨t, o, .test, ?_, others _, h3, Or.inl ⟨h4, by simp⟩⟩⟩, rfl⟩
        show upd s.pc t _ t = _
        rw [pct, I.reg]; rfl
      · refine ⟨_, rfl, Or.inl ⟨I.lock, I.reg, I.nxt, I.done, I.maps, Or.inr ⟨t, o, .initLock, ?_, others _, h3, Or.inl ⟨h4, by simp⟩⟩⟩, rfl⟩
        show upd s.pc t _ t = _
        rw [pct, h4]; rfl
      · exact ⟨_, rfl, Or.inl ⟨rfl, I.reg, I.nxt, I.done, I.maps, Or.inr ⟨t, o, .initFlag, pct _, others _, h3, Or.inl ⟨h4, by simp⟩⟩⟩, rfl⟩
      · exact ⟨_, rfl, Or.inl ⟨I.lock, I.reg, I.nxt, I.done, I.maps, Or.inr ⟨t, o, .wipe, pct _, others _, h3, Or.inr ⟨rfl, rfl⟩⟩⟩, rfl⟩
      · refine ⟨_, rfl, Or.inr ?_, rfl⟩
        have pcs : ∀ u o1 c1, upd s.pc t (some (o, Stage.acquire)) u = some (o1, c1) → u = t ∧ o1 = o ∧ c1 = .acquire := by
          intro u o1 c1 h
          by_cases hu : u = t
          · rw [hu, pct] at h
            obtain ⟨rfl, rfl⟩ := Prod.mk.inj (Option.some.inj h)
            exact ⟨hu, rfl, rfl⟩
          · rw [others _ u hu] at h; cases h
        refine ⟨h4, ?_, ?_, ?_, ?_, ?_, ?_, ?_, ?_, ?_, ?_, ?_, ?_⟩
        · intro u o1 c1 h
          obtain ⟨_, _, rfl⟩ := pcs u o1 c1 h
          trivial
        · intro _ u o1 c1 h
          obtain ⟨_, _, rfl⟩ := pcs u o1 c1 h
          exact id
        · intro u v o1 c1 o2 c2 hu hv _ _
          rw [(pcs _ _ _ hu).1, (pcs _ _ _ hv).1]
        · show 0 < s.nxt
          rw [I.nxt]; omega
        · intro i
          show 0 < s.nxt
          rw [I.nxt]; omega
        · intro i j _ h; exact absurd rfl h
        · intro k b h
          have h : (k, b) ∈ s.done := h
          rw [I.done] at h; cases h
        · intro i k h; exact absurd rfl h
        · intro u k b c1 h
          obtain ⟨_, h', _⟩ := pcs _ _ _ h
          refine ⟨h3 k b h'.symm, fun d hd => ?_⟩
          have hd : (k, d) ∈ s.done := hd
          rw [I.done] at hd; cases hd
        · rintro u v k ⟨b, c1, h⟩ ⟨b', c2, h'⟩
          rw [(pcs _ _ _ h).1, (pcs _ _ _ h').1]
        · show s.maps.Nodup
          rw [I.maps]; exact List.nodup_nil
        · intro i
          show i ∈ s.maps ↔ (0 : Nat) ≠ 0
          rw [I.maps]; simp

theorem Reach.inv {s : S} (h : Reach True s) : Inv0 s ∨ Inv s := by
  induction h with
  | start => exact Or.inl ⟨rfl, rfl, rfl, rfl, rfl, Or.inl ⟨rfl, fun _ => rfl⟩⟩
  | @step s s' t x _ e ih =>
    rcases ih with I | I
    · obtain ⟨s1, e1, h1, _⟩ := I.step t
      rw [e1] at e
      obtain ⟨rfl, _⟩ := Prod.mk.inj (Outcome.ok.inj e)
      exact h1
    · obtain ⟨s1, x1, e1, h1, _⟩ := I.step t
      rw [e1] at e
      obtain ⟨rfl, _⟩ := Prod.mk.inj (Outcome.ok.inj e)
      exact Or.inr h1
  | @call s t o _ hp hv ha ih =>
    rcases ih with I | I
    · refine Or.inl ⟨I.lock, I.reg, I.nxt, I.done, I.maps, Or.inr ⟨t, o, .get, upd_same _ _ _, fun u hu => ?_,
        fun k b e => (hv k b e).1, Or.inl ⟨?_, by simp⟩⟩⟩
      · rw [show (s.go t (some (o, .get))).pc u = s.pc u from upd_ne hu]
        rcases ha trivial with hr | hr
        · rcases I.pc with h | ⟨t', o', c', h1, h2, h3, h4⟩
          · exact h.2 u
          · rcases h4 with h4 | ⟨_, rfl⟩
            · rw [hr.1] at h4; cases h4.1
            · exact absurd h1 (hr.2 t' o')
        · exact hr u
      · rcases I.pc with h | ⟨t', o', c', h1, h2, h3, h4⟩
        · exact h.1
        · rcases ha trivial with hr | hr
          · rcases h4 with h4 | ⟨_, rfl⟩
            · exact h4.1
            · exact absurd h1 (hr.2 t' o')
          · rw [hr t'] at h1; cases h1
    · refine Or.inr ?_
      have pcs : ∀ u o1 c1, upd s.pc t (some (o, Stage.get)) u = some (o1, c1) →
          (u = t ∧ o1 = o ∧ c1 = .get) ∨ (u ≠ t ∧ s.pc u = some (o1, c1)) := by
        intro u o1 c1
        unfold upd
        split
        · rintro h
          obtain ⟨rfl, rfl⟩ := Prod.mk.inj (Option.some.inj h)
          exact Or.inl ⟨‹_›, rfl, rfl⟩
        · exact fun h => Or.inr ⟨‹_›, h⟩
      refine ⟨I.init, ?_, ?_, ?_, I.pos, I.lt, I.inj, I.done, I.conv, ?_, ?_, I.nodup, I.maps⟩
      · intro u o1 c1 h
        rcases pcs u o1 c1 h with ⟨rfl, rfl, rfl⟩ | ⟨_, h'⟩
        · trivial
        · have := I.knows u o1 c1 h'
          cases c1 <;> exact this
      · intro hl u o1 c1 h
        rcases pcs u o1 c1 h with ⟨rfl, rfl, rfl⟩ | ⟨hu, h'⟩
        · exact id
        · exact I.free hl u o1 c1 h'
      · intro u v o1 c1 o2 c2 hu hv k1 k2
        rcases pcs u o1 c1 hu with ⟨rfl, rfl, rfl⟩ | ⟨n1, e1⟩
        · exact k1.elim
        · rcases pcs v o2 c2 hv with ⟨rfl, rfl, rfl⟩ | ⟨n2, e2⟩
          · exact k2.elim
          · exact I.uniq _ _ _ _ _ _ e1 e2 k1 k2
      · intro u k b c1 h
        rcases pcs u _ c1 h with ⟨rfl, h', rfl⟩ | ⟨_, h'⟩
        · exact ⟨(hv k b h'.symm).1, (hv k b h'.symm).2.2⟩
        · exact I.sets u k b c1 h'
      · rintro u v k ⟨b, c1, h⟩ ⟨b', c2, h'⟩
        rcases pcs u _ c1 h with ⟨rfl, g1, rfl⟩ | ⟨_, g1⟩
        · rcases pcs v _ c2 h' with ⟨rfl, g2, rfl⟩ | ⟨_, g2⟩
          · rfl
          · exact absurd ⟨b', c2, g2⟩ ((hv k b g1.symm).2.1 v)
        · rcases pcs v _ c2 h' with ⟨rfl, g2, rfl⟩ | ⟨_, g2⟩
          · exact absurd ⟨b, c1, g1⟩ ((hv k b' g2.symm).2.1 u)
          · exact I.dist u v k ⟨b, c1, g1⟩ ⟨b', c2, g2⟩

/-! ## C52 -/

/-- What the tables say of the entry `k`. -/
def S.entry (s : S) (k : Nat) : Nat := if s.reg (k / N) = 0 then 0 else s.tab (s.reg (k / N)) k

/-- C52. When the first call is alone until the initialisation is over, then in every interleaving of any number of threads
each bloc whose registration has returned is in the tables, no region gets two tables, and no step aborts. Missing: two
threads in the initialisation (`C52_refuted`). -/
theorem C52_registered_partial {s : S} (h : Reach True s) :
    (∀ k b, (k, b) ∈ s.done → s.entry k = b) ∧ s.maps.Nodup ∧ ∀ t, ∃ s' x, step s t = .ok (s', x) := by
  rcases h.inv with I | I
  · refine ⟨fun k b h => (by rw [I.done] at h; cases h), by rw [I.maps]; exact List.nodup_nil, fun t => ?_⟩
    obtain ⟨s', e, _⟩ := I.step t
    exact ⟨s', none, e⟩
  · refine ⟨fun k b h => ?_, I.nodup, fun t => ?_⟩
    · obtain ⟨_, h1, h2⟩ := I.done k b h
      unfold S.entry
      rw [if_neg h1, h2]
    · obtain ⟨s', x, e, _⟩ := I.step t
      exact ⟨s', x, e⟩

/-- C52. A thread that reads the entry of a bloc whose registration has returned gets this bloc. Missing: as above. -/
theorem C52_lookup_partial {s s' : S} {t k b v : Nat} {c : Stage} (h : Reach True s) (hd : (k, b) ∈ s.done)
    (hp : s.pc t = some (.look k, c)) (e : step s t = .ok (s', some v)) : v = b := by
  rcases h.inv with I | I
  · rw [I.done] at hd; cases hd
  · obtain ⟨s1, x, e1, _, _, h1⟩ := I.step t
    rw [e1] at e
    obtain ⟨_, rfl⟩ := Prod.mk.inj (Outcome.ok.inj e)
    obtain ⟨k', c', h2, _, rfl⟩ := h1 v rfl
    rw [hp] at h2
    cases h2
    exact (I.done k b hd).2.2

/-- The steps of a schedule. -/
def run : S → List Nat → Outcome S
  | s, [] => .ok s
  | s, t :: l => do
    let (s, _) ← step s t
    run s l

theorem run_reach {al : Prop} {s s' : S} {l : List Nat} (h : Reach al s) (e : run s l = .ok s') : Reach al s' := by
  induction l generalizing s with
  | nil => rw [← Outcome.ok.inj e]; exact h
  | cons t l ih =>
    unfold run at e
    obtain ⟨⟨s1, x⟩, e1, e⟩ := Outcome.bind_eq_ok e
    exact ih (h.step e1) e

/-- Two threads start a call in the first state; thread 0 registers bloc 7 in entry 0, thread 1 bloc 8 in entry 1. -/
def two : S := (start.go 0 (some (.set 0 7, .get))).go 1 (some (.set 1 8, .get))

theorem two_reach : Reach False two := by
  refine .call (.call .start rfl ?_ False.elim) rfl ?_ False.elim
  · intro k b e
    obtain ⟨rfl, rfl⟩ := Op.set.inj e
    refine ⟨by decide, ?_, fun c h => by cases h⟩
    rintro u ⟨b, c, h⟩
    cases h
  · intro k b e
    obtain ⟨rfl, rfl⟩ := Op.set.inj e
    refine ⟨by decide, ?_, fun c h => by cases h⟩
    rintro u ⟨b, c, h⟩
    simp only [S.go, upd, start] at h
    split at h
    · obtain ⟨h, _⟩ := Prod.mk.inj (Option.some.inj h)
      cases h
    · cases h

theorem run_other {s s' : S} {l : List Nat} {u : Nat} (e : run s l = .ok s') (hu : u ∉ l) : s'.pc u = s.pc u := by
  induction l generalizing s with
  | nil => rw [← Outcome.ok.inj e]
  | cons t l ih =>
    unfold run at e
    obtain ⟨⟨s1, x⟩, e1, e⟩ := Outcome.bind_eq_ok e
    rw [ih e (fun h => hu (List.mem_cons_of_mem _ h))]
    have ht : u ≠ t := fun h => hu (by rw [h]; exact List.mem_cons_self)
    unfold step at e1
    split at e1
    · rw [← (Prod.mk.inj (Outcome.ok.inj e1)).1]
    · rename_i o c _
      unfold stage at e1
      split at e1
      case h_11 =>
        split at e1
        · split at e1
          · cases e1
          · rw [← (Prod.mk.inj (Outcome.ok.inj e1)).1]; exact upd_ne ht
        · rw [← (Prod.mk.inj (Outcome.ok.inj e1)).1]; exact upd_ne ht
      all_goals rw [← (Prod.mk.inj (Outcome.ok.inj e1)).1]; exact upd_ne ht

/-- The state after a schedule. -/
def after (s : S) (l : List Nat) : S :=
  match run s l with
  | .ok s => s
  | _ => s

/-- Thread 0 registers bloc 7 in entry 0. -/
def one : S := start.go 0 (some (.set 0 7, .get))

theorem one_reach : Reach True one := by
  refine .call .start rfl ?_ (fun _ => Or.inr fun _ => rfl)
  intro k b e
  obtain ⟨rfl, rfl⟩ := Op.set.inj e
  refine ⟨by decide, ?_, fun c h => by cases h⟩
  rintro u ⟨b, c, h⟩
  cases h

/-- Thread 1 starts while thread 0 holds the lock. -/
def held : S := after one (List.replicate 6 0)

/-- Both have registered. -/
def both : S := after (held.go 1 (some (.set 1 8, .get))) ([1, 1, 1, 1] ++ List.replicate 5 0 ++ List.replicate 4 1)

theorem both_reach : Reach True both ∧ ∀ u, both.pc u = none := by
  have e1 : run one (List.replicate 6 0) = .ok held := rfl
  have p1 : ∀ u, u ≠ 0 → held.pc u = none := by
    intro u hu
    rw [run_other e1 (by simpa using hu)]
    show upd (fun _ => none) 0 _ u = none
    rw [upd_ne hu]
  have p0 : held.pc 0 = some (.set 0 7, .check) := rfl
  have r2 : Reach True (held.go 1 (some (.set 1 8, .get))) := by
    refine .call (run_reach one_reach e1) (p1 1 (by decide)) ?_ (fun _ => Or.inl ⟨rfl, fun u o h => ?_⟩)
    · intro k b e
      obtain ⟨rfl, rfl⟩ := Op.set.inj e
      refine ⟨by decide, ?_, fun c h => by cases h⟩
      rintro u ⟨b, c, h⟩
      by_cases hu : u = 0
      · rw [hu, p0] at h; cases h
      · rw [p1 u hu] at h; cases h
    · by_cases hu : u = 0
      · rw [hu, p0] at h; cases h
      · rw [p1 u hu] at h; cases h
  have e2 : run (held.go 1 (some (.set 1 8, .get))) ([1, 1, 1, 1] ++ List.replicate 5 0 ++ List.replicate 4 1) = .ok both := rfl
  refine ⟨run_reach r2 e2, fun u => ?_⟩
  match u with
  | 0 => rfl
  | 1 => rfl
  | u + 2 =>
    rw [run_other e2 (by simp [List.replicate])]
    show upd held.pc 1 (some (.set 1 8, .get)) (u + 2) = none
    rw [upd_ne (by omega)]
    exact p1 _ (by omega)

/-- Hypotheses of the partial theorems: two threads have registered blocs in the same region, and thread 1 reads the one of
thread 0. -/
example : ∃ s s', Reach True s ∧ (0, 7) ∈ s.done ∧ (1, 8) ∈ s.done ∧ s.pc 1 = some (.look 0, .use 1) ∧
    step s 1 = .ok (s', some 7) := by
  obtain ⟨r3, p2⟩ := both_reach
  have r4 : Reach True (both.go 1 (some (.look 0, .get))) :=
    .call r3 (p2 1) (fun k b e => by cases e) (fun _ => Or.inr p2)
  exact ⟨_, _, r4.step (t := 1) (x := none) (s' := (both.go 1 (some (.look 0, .get))).go 1 (some (.look 0, .use 1))) rfl,
    by decide, by decide, rfl, rfl⟩

/-- C52 is false when two threads make the first calls together: thread 0 is about to clear the array of regions when thread
1, for which the initialisation looks done, registers its bloc and returns; then thread 0 clears the array, and the bloc of
thread 1 is lost. -/
theorem C52_refuted : ∃ s, Reach False s ∧ (∀ u, s.pc u = none) ∧ (1, 8) ∈ s.done ∧ s.entry 1 = 0 := by
  obtain ⟨s, e, h1, h2, h3, h4⟩ : ∃ s, run two ([0, 0, 0, 0] ++ List.replicate 8 1 ++ List.replicate 7 0) = .ok s ∧
      (∀ u, 2 ≤ u → s.pc u = none) ∧ (s.pc 0 = none ∧ s.pc 1 = none) ∧ (1, 8) ∈ s.done ∧ s.entry 1 = 0 := by
    refine ⟨_, rfl, fun u hu => ?_, ⟨rfl, rfl⟩, by decide, rfl⟩
    have h0 : u ≠ 0 := by omega
    have h1 : u ≠ 1 := by omega
    simp [S.go, upd, two, start, h0, h1]
  refine ⟨s, run_reach two_reach e, fun u => ?_, h3, h4⟩
  match u with
  | 0 => exact h2.1
  | 1 => exact h2.2
  | u + 2 => exact h1 _ (by omega)

/-- C52 is false: the second initialisation frees the lock that the first thread holds, both are in the critical section and
both map a table for the same region; the bloc of thread 0 is lost. -/
theorem C52_refuted_lock : ∃ s, Reach False s ∧ (0, 7) ∈ s.done ∧ s.entry 0 = 0 ∧ s.maps = [0, 0] := by
  obtain ⟨s, e, h⟩ : ∃ s, run two ([0, 0, 1, 1] ++ List.replicate 4 0 ++ [1, 1, 1] ++ [0, 0] ++ [1, 1] ++ List.replicate 3 0 ++ List.replicate 4 1) = .ok s ∧
      ((0, 7) ∈ s.done ∧ s.entry 0 = 0 ∧ s.maps = [0, 0]) := ⟨_, rfl, by decide, rfl, rfl⟩
  exact ⟨s, run_reach two_reach e, h⟩

end RegionInit
end MpcAlloc
